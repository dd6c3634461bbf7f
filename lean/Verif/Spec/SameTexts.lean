import Verif.Spec.Lists
import Verif.Spec.Reachable
/-!
# Templates with wildcards and variables for which all sampling methods know the same prompts

This extends `Spec.SamePrompts` to wildcards, variables and assignments.
-/

namespace Verif.Spec
open Verif
variable {W : Type}

/-- What a prompt is read as. -/
inductive ReadAs (E : Env W) : Prompt → Cmd → Prop
  | text {s c} : s ≠ [] → E.parse s = .ok c → ReadAs E (.inl s) c
  | cmd {c} : c.truthy = true → ReadAs E (.inr c) c

/-- The tokens of a sequence and the bindings its assignments make, where immediate assignments bind the text
given by `g`. -/
inductive Binds (g : Cmd → Str) (vars : List (Str × Cmd)) : List Cmd → List Cmd → List (Str × Cmd) → Prop
  | nil : Binds g vars [] [] []
  | tok {c cs toks new} : (∀ n v i o, c ≠ .assign n v i o) → Binds g vars cs toks new →
      Binds g vars (c :: cs) (c :: toks) new
  /-- `?=` keeps an existing value -/
  | keep {n v i cs toks new c} : vars.lookup n = some c → Binds g vars cs toks new →
      Binds g vars (.assign n v i false :: cs) toks (new ++ [(n, c)])
  | plain {n v o cs toks new} : (o = true ∨ vars.lookup n = none) → Binds g vars cs toks new →
      Binds g vars (.assign n v false o :: cs) toks (new ++ [(n, v)])
  | now {n v o cs toks new} : (o = true ∨ vars.lookup n = none) → (∀ s m, v = .lit s m → m = none) →
      Binds g vars cs toks new → Binds g vars (.assign n v true o :: cs) toks (new ++ [(n, .lit (g v) none)])

/-- `SameTexts E vars being c outs`: templates without a random or cyclical part and with positive weights, whose
combinatorial list is `outs`, such that
* a choice either picks one option, or no two of its options share a text,
* the wildcard manager always gives the same values for a wildcard, at least one, with weights of at least 1,
* the name of a wildcard, and a variable that is evaluated immediately, have one text only,
* squashing of whitespace, if it is on, does not change the parts of a wrap. -/
inductive SameTexts (E : Env W) : List (Str × Cmd) → List Str → Cmd → List Str → Prop
  | lit {vars being s m} : Finite m → SameTexts E vars being (.lit s m) [s]
  | seq {vars being toks m toks' new} (g : Cmd → Str) (f : Cmd → List Str) : Finite m → Binds g vars toks toks' new →
      (∀ n v o, .assign n v true o ∈ toks → (o = true ∨ vars.lookup n = none) → SameTexts E vars being v [g v]) →
      (∀ c, c ∈ toks' → SameTexts E (new ++ vars) being c (f c)) →
      SameTexts E vars being (.seq toks [] m) ((product (toks'.map f)).map (joined []))
  | one {vars being opts sep m} (f : Cmd → List Str) : Finite m → ¬ SingleWild opts → opts ≠ [] →
      (∀ p, p ∈ opts → 0 < p.2) → (∀ p, p ∈ opts → SameTexts E vars being p.1 (f p.1)) →
      SameTexts E vars being (.variant opts 1 1 sep m) (variantTexts opts 1 1 sep f)
  | several {vars being opts lo hi sep m} (f : Cmd → List Str) : Finite m → 2 ≤ opts.length →
      (∀ p, p ∈ opts → 0 < p.2) → (∀ p, p ∈ opts → SameTexts E vars being p.1 (f p.1)) → 0 ≤ max lo hi →
      (opts.map (·.1)).Pairwise (fun a b => ∀ s, s ∈ f a → s ∉ f b) →
      SameTexts E vars being (.variant opts lo hi sep m) (variantTexts opts lo hi sep f)
  /-- a choice of one wildcard is the choice of the wildcard's values -/
  | ofValues {vars being path m' v wt lo hi sep m c q items cs outs} : Finite m → ReadAs E path c →
      SameTexts E vars being c [q] → Gives E (squashIf E.ignoreWs q) items →
      ParsesAll E (iterateWeighted items) cs →
      SameTexts E vars being (Cmd.mkVariant (cs.map (fun c => (c, 1))) (min lo items.length)
        (min hi items.length) sep m') outs →
      SameTexts E vars being (.variant [(.wild path m' v, wt)] lo hi sep m) outs
  | wild {vars being path m v c q items} (g : Str → Cmd) (f : Str → List Str) : Finite m → ReadAs E path c →
      SameTexts E vars being c [q] → Gives E (squashIf E.ignoreWs q) items → items ≠ [] →
      (∀ i, i ∈ items → 1 ≤ i.weight.getD 1) → (∀ i, i ∈ items → ReadAs E (.inl i.content) (g i.content)) →
      (∀ i, i ∈ items → SameTexts E (v ++ vars) being (g i.content) (f i.content)) →
      SameTexts E vars being (.wild path m v)
        ((iterateWeighted items).flatMap fun x => (f x).map (squashIf E.ignoreWs))
  | access {vars being name d c outs} : Resolves E.unknown vars name d c → name ∉ being →
      SameTexts E vars (name :: being) c outs → SameTexts E vars being (.access name d) outs
  | wrap {vars being w i m xs ys} : Finite m → w.truthy = true → i.truthy = true →
      SameTexts E vars being w xs → SameTexts E vars being i ys → (∀ x, x ∈ xs → squashIf E.ignoreWs x = x) →
      (∀ y, y ∈ ys → squashIf E.ignoreWs y = y) →
      SameTexts E vars being (.wrap w i m) (xs.flatMap fun x => ys.map (wrapWith x))

end Verif.Spec
