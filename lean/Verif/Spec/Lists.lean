import Verif.Spec.Cycle
import Verif.Spec.Productive
/-!
# What combinatorial sampling lists, for all kinds of commands

`Lists E vars being c outs`: sampled combinatorially with variables `vars` (and `being` under
evaluation), command `c` lists exactly the texts `outs` and then stops.  This extends `Spec.enum` to
wildcards (whose manager always gives the same answer), variables and assignments.
-/

namespace Verif.Spec
open Verif
variable {W : Type}

/-- What a variant lists: all combinations of the texts of each selection, without those that
contain a text twice, and without repetitions; joined. -/
def variantTexts (opts : List (Cmd × Rat)) (lo hi : Int) (sep : Str) (f : Cmd → List Str) : List Str :=
  ((((variantSelections opts lo hi).flatMap fun sel => product (sel.map f)).filter
    (fun t => decide t.Nodup)).eraseDups).map (joined sep)

mutual
/-- The texts of a command, in order. -/
inductive Lists (E : Env W) : List (Str × Cmd) → List Str → Cmd → List Str → Prop
  | lit {vars being s m} : Finite m → Lists E vars being (.lit s m) [s]
  /-- all combinations of the tokens' texts -/
  | seq {vars being toks sep m toks' new outss} : Finite m →
      ListsAssigned E vars being toks toks' new → ListsTokens E (new ++ vars) being toks' outss →
      Lists E vars being (.seq toks sep m)
        ((product outss).map fun t => joined sep ([] :: t ++ [[]]))
  | empty {vars being lo hi sep m} : Finite m → Lists E vars being (.variant [] lo hi sep m) []
  | variant {vars being opts lo hi sep m} (f : Cmd → List Str) : Finite m → ¬ SingleWild opts →
      opts ≠ [] → (∀ p, p ∈ opts → Lists E vars being p.1 (f p.1)) →
      Lists E vars being (.variant opts lo hi sep m) (variantTexts opts lo hi sep f)
  /-- a variant consisting of one wildcard is the variant of the wildcard's values -/
  | variantWild {vars being path m' v wt lo hi sep m p ps items cs outs} : Finite m →
      ListsPrompt E vars being path (p :: ps) → (∀ w, ∃ w', E.getValues p w = .ok items w') →
      ParsesAll E (iterateWeighted items) cs →
      Lists E vars being (Cmd.mkVariant (cs.map (fun c => (c, 1))) (min lo items.length)
        (min hi items.length) sep none) outs →
      Lists E vars being (.variant [(.wild path m' v, wt)] lo hi sep m) outs
  /-- a wildcard lists the texts of its values, one value after the other -/
  | wild {vars being path m v p ps items} (f : Str → List Str) : Finite m →
      ListsPrompt E vars being path (p :: ps) → (∀ w, ∃ w', E.getValues p w = .ok items w') →
      items ≠ [] →
      (∀ x, x ∈ iterateWeighted items → ListsPrompt E (v ++ vars) being (.inl x) (f x)) →
      Lists E vars being (.wild path m v) ((iterateWeighted items).flatMap f)
  | access {vars being name d c outs} : Resolves E.unknown vars name d c → name ∉ being →
      Lists E vars (name :: being) c outs → Lists E vars being (.access name d) outs
  | wrap {vars being w i m xs ys} : Finite m → ListsPrompt E vars being (.inr w) xs →
      ListsPrompt E vars being (.inr i) ys →
      Lists E vars being (.wrap w i m) (xs.flatMap fun x => ys.map (wrapWith x))
/-- The tokens of a sequence; one that is not marked combinatorial must have a text. -/
inductive ListsTokens (E : Env W) : List (Str × Cmd) → List Str → List Cmd → List (List Str) → Prop
  | nil {vars being} : ListsTokens E vars being [] []
  | cons {vars being c cs outs outss} : Lists E vars being c outs →
      (c.method = none → outs ≠ []) → ListsTokens E vars being cs outss →
      ListsTokens E vars being (c :: cs) (outs :: outss)
/-- A prompt given as text or command; an empty one has no texts. -/
inductive ListsPrompt (E : Env W) : List (Str × Cmd) → List Str → Prompt → List Str → Prop
  | none {vars being} : ListsPrompt E vars being (.inl []) []
  | text {vars being s c outs} : s ≠ [] → E.parse s = .ok c → Lists E vars being c outs →
      ListsPrompt E vars being (.inl s) (outs.map (squashIf E.ignoreWs))
  | empty {vars being c} : c.truthy = false → ListsPrompt E vars being (.inr c) []
  | cmd {vars being c outs} : c.truthy = true → Lists E vars being c outs →
      ListsPrompt E vars being (.inr c) (outs.map (squashIf E.ignoreWs))
/-- The tokens and bindings of a sequence; an immediate assignment binds the first text. -/
inductive ListsAssigned (E : Env W) :
    List (Str × Cmd) → List Str → List Cmd → List Cmd → List (Str × Cmd) → Prop
  | nil {vars being} : ListsAssigned E vars being [] [] []
  | tok {vars being c cs toks new} : (∀ n v i o, c ≠ .assign n v i o) →
      ListsAssigned E vars being cs toks new → ListsAssigned E vars being (c :: cs) (c :: toks) new
  | keep {vars being n v i cs toks new c} : vars.lookup n = some c →
      ListsAssigned E vars being cs toks new →
      ListsAssigned E vars being (.assign n v i false :: cs) toks (new ++ [(n, c)])
  | plain {vars being n v o cs toks new} : (o = true ∨ vars.lookup n = none) →
      ListsAssigned E vars being cs toks new →
      ListsAssigned E vars being (.assign n v false o :: cs) toks (new ++ [(n, v)])
  | literal {vars being n s m o cs toks new} : (o = true ∨ vars.lookup n = none) →
      ListsAssigned E vars being cs toks new →
      ListsAssigned E vars being (.assign n (.lit s m) true o :: cs) toks (new ++ [(n, .lit s m)])
  | immediate {vars being n v o cs toks new x xs} : (o = true ∨ vars.lookup n = none) →
      (∀ s m, v ≠ .lit s m) → Lists E vars being v (x :: xs) →
      ListsAssigned E vars being cs toks new →
      ListsAssigned E vars being (.assign n v true o :: cs) toks (new ++ [(n, .lit x none)])
end

/-- The parts of a template that are not finite do not multiply.

`Counted E vars being c ps`: sampled combinatorially, `c` lists one text per element of `ps`, the
`i`-th one satisfying the `i`-th predicate, whatever the random source does. -/
inductive Counted (E : Env W) : List (Str × Cmd) → List Str → Cmd → List (Str → Prop) → Prop
  /-- a finite command: these texts -/
  | exact {vars being c outs} : Lists E vars being c outs →
      Counted E vars being c (outs.map fun o s => s = o)
  /-- a sequence: one text per combination, consisting of one text per token -/
  | seq {vars being toks sep m toks' new} (pss : List (List (Str → Prop))) : Finite m →
      ListsAssigned E vars being toks toks' new →
      toks'.length = pss.length →
      (∀ c ps, (c, ps) ∈ toks'.zip pss → Finite c.method → Counted E (new ++ vars) being c ps) →
      (∀ c ps, (c, ps) ∈ toks'.zip pss → c.method = none → ps ≠ []) →
      (∀ c ps, (c, ps) ∈ toks'.zip pss → c.method = some .random ∨ c.method = some .cyc →
        Prod E .comb (new ++ vars) being c ∧ ps = [Lang E (new ++ vars) c]) →
      Counted E vars being (.seq toks sep m) ((product pss).map fun t s =>
        ∃ strs, List.Forall₂ (fun p x => p x) t strs ∧ s = joined sep ([] :: strs ++ [[]]))
  /-- a wrap: one text per wrapper and inner text -/
  | wrap {vars being w i m ps qs} : Finite m → w.truthy = true → i.truthy = true →
      Counted E vars being w ps → Counted E vars being i qs →
      Counted E vars being (.wrap w i m) (ps.flatMap fun p => qs.map fun q s =>
        ∃ x y, p x ∧ q y ∧ s = wrapWith (squashIf E.ignoreWs x) (squashIf E.ignoreWs y))

end Verif.Spec
