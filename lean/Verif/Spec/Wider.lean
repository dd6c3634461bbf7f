import Verif.Spec.Reachable
/-!
# Templates and wildcards with more options and values

`Wider E E' c c'`: the command `c'` is `c` with more options in some of its choices, read in an environment `E'` whose
wildcards may have more values than those of `E` (`More`).
-/

namespace Verif.Spec
open Verif
variable {W : Type}

mutual
/-- The command with options added to choices.  A choice with new options has room for all it could pick before; a wildcard
alone in braces stands for the choice of its values. -/
inductive Wider (E E' : Env W) : Cmd → Cmd → Prop
  | lit {s m} : Wider E E' (.lit s m) (.lit s m)
  | seq {toks toks' sep m} : WiderAll E E' toks toks' → Wider E E' (.seq toks sep m) (.seq toks' sep m)
  | variant {opts opts' sep m} {lo hi : Int} : ¬ SingleWild opts → WiderOptions E E' opts opts' →
      (opts'.length = opts.length ∨ (opts ≠ [] ∧ lo ≤ opts.length ∧ hi ≤ opts.length ∧
        (opts.length = 1 → lo = 1 ∧ hi = 1 ∧ ∀ p, p ∈ opts → 0 < p.2))) →
      Wider E E' (.variant opts lo hi sep m) (.variant opts' lo hi sep m)
  | lone {path path' m' v v' wt wt' sep m} {lo hi : Int} (f : Str → List Item) (g : Str → List Cmd → List Cmd) :
      WiderPath E E' path path' →
      (∀ vars being wc items cs, CouldPrompt E vars being path wc → Gives E wc items →
        ParsesAll E (iterateWeighted items) cs → Gives E' wc (f wc) ∧ ParsesAll E' (iterateWeighted (f wc)) (g wc cs)) →
      (∀ vars being wc items cs, CouldPrompt E vars being path wc → Gives E wc items →
        ParsesAll E (iterateWeighted items) cs → Wider E E' (Cmd.mkVariant (cs.map (fun c => (c, 1))) (min lo items.length) (min hi items.length) sep m')
          (Cmd.mkVariant ((g wc cs).map (fun c => (c, 1))) (min lo (f wc).length) (min hi (f wc).length) sep m')) →
      Wider E E' (.variant [(.wild path m' v, wt)] lo hi sep m) (.variant [(.wild path' m' v', wt')] lo hi sep m)
  | wild {path path' m v v'} : WiderPath E E' path path' → WiderVars E E' v v' →
      Wider E E' (.wild path m v) (.wild path' m v')
  | assign {n v v' i o} : Wider E E' v v' → Wider E E' (.assign n v i o) (.assign n v' i o)
  | access {n} : Wider E E' (.access n none) (.access n none)
  | accessDefault {n d d'} : Wider E E' d d' → Wider E E' (.access n (some d)) (.access n (some d'))
  | wrap {w w' i i' m} : Wider E E' w w' → Wider E E' i i' → Wider E E' (.wrap w i m) (.wrap w' i' m)
/-- The commands of a list. -/
inductive WiderAll (E E' : Env W) : List Cmd → List Cmd → Prop
  | nil : WiderAll E E' [] []
  | cons {c c' l l'} : Wider E E' c c' → WiderAll E E' l l' → WiderAll E E' (c :: l) (c' :: l')
/-- The options of a choice: any may be added, with a positive weight, and weights may be changed to positive ones. -/
inductive WiderOptions (E E' : Env W) : List (Cmd × Rat) → List (Cmd × Rat) → Prop
  | nil : WiderOptions E E' [] []
  | keep {c c' l l'} {q q' : Rat} : Wider E E' c c' → (0 < q → 0 < q') → 0 ≤ q' → WiderOptions E E' l l' →
      WiderOptions E E' ((c, q) :: l) ((c', q') :: l')
  | add {c l l'} {q : Rat} : 0 < q → WiderOptions E E' l l' → WiderOptions E E' l ((c, q) :: l')
/-- Variables with the same names. -/
inductive WiderVars (E E' : Env W) : List (Str × Cmd) → List (Str × Cmd) → Prop
  | nil : WiderVars E E' [] []
  | cons {n c c' l l'} : Wider E E' c c' → WiderVars E E' l l' → WiderVars E E' ((n, c) :: l) ((n, c') :: l')
/-- The name of a wildcard. -/
inductive WiderPath (E E' : Env W) : Prompt → Prompt → Prop
  | text {t} : E'.parse t = E.parse t → (∀ c, E.parse t = .ok c → Wider E E' c c) → WiderPath E E' (.inl t) (.inl t)
  | cmd {c c'} : Wider E E' c c' → WiderPath E E' (.inr c) (.inr c')
end

/-- A text that is read as a wider command. -/
def WiderText (E E' : Env W) (t t' : Str) : Prop :=
  (t ≠ [] → t' ≠ []) ∧ ∀ c, E.parse t = .ok c → ∃ c', E'.parse t' = .ok c' ∧ Wider E E' c c'

/-- A prompt, given as text or as a command. -/
inductive WiderPrompt (E E' : Env W) : Prompt → Prompt → Prop
  | text {t t'} : WiderText E E' t t' → WiderPrompt E E' (.inl t) (.inl t')
  | cmd {c c'} : Wider E E' c c' → WiderPrompt E E' (.inr c) (.inr c')

/-- An environment whose wildcards have more values: a wildcard without values stays without values, otherwise each value is
still there (or a wider one), and no weight is negative. -/
structure More (E E' : Env W) : Prop where
  ignoreWs : E'.ignoreWs = E.ignoreWs
  toWildcard : E'.toWildcard = E.toWildcard
  unknown : ∀ u, E.unknown = some u → ∃ u', E'.unknown = some u' ∧ Wider E E' u u'
  missing : ∀ wc, Gives E wc [] → Gives E' wc []
  values : ∀ wc items, Gives E wc items → items ≠ [] → ∃ items', Gives E' wc items' ∧ (∀ i ∈ items', 0 ≤ i.weight.getD 1) ∧
    ∀ i ∈ items, 0 < i.weight.getD 1 → ∃ i' ∈ items', 0 < i'.weight.getD 1 ∧ WiderText E E' i.content i'.content

/-- Templates that stay what they are when wildcards get more values: weights are not negative, and a wildcard alone in
braces has two values or more, each at least once in the list of values, and no more of them are picked than there are. -/
inductive Settled (E : Env W) : Cmd → Prop
  | lit {s m} : Settled E (.lit s m)
  | seq {toks sep m} : (∀ c, c ∈ toks → Settled E c) → Settled E (.seq toks sep m)
  | variant {opts lo hi sep m} : ¬ SingleWild opts → (∀ p, p ∈ opts → 0 ≤ p.2) → (∀ p, p ∈ opts → Settled E p.1) →
      Settled E (.variant opts lo hi sep m)
  | lone {path m' v wt sep m} {lo hi : Int} : (∀ t c, path = .inl t → E.parse t = .ok c → Settled E c) →
      (∀ c, path = .inr c → Settled E c) →
      (∀ vars being wc items, CouldPrompt E vars being path wc → Gives E wc items →
        2 ≤ items.length ∧ lo ≤ items.length ∧ hi ≤ items.length ∧ ∀ i, i ∈ items → 1 ≤ i.weight.getD 1) →
      (∀ vars being wc items i c, CouldPrompt E vars being path wc → Gives E wc items → i ∈ items →
        E.parse i.content = .ok c → Settled E c) →
      Settled E (.variant [(.wild path m' v, wt)] lo hi sep m)
  | wild {path m v} : (∀ t c, path = .inl t → E.parse t = .ok c → Settled E c) → (∀ c, path = .inr c → Settled E c) →
      (∀ p, p ∈ v → Settled E p.2) → Settled E (.wild path m v)
  | assign {n v i o} : Settled E v → Settled E (.assign n v i o)
  | access {n d} : (∀ c, d = some c → Settled E c) → Settled E (.access n d)
  | wrap {w i m} : Settled E w → Settled E i → Settled E (.wrap w i m)

/-- An environment in which wildcards that have values may have more of them, anywhere in their lists. -/
structure MoreValues (E E' : Env W) : Prop where
  parse : E'.parse = E.parse
  ignoreWs : E'.ignoreWs = E.ignoreWs
  toWildcard : E'.toWildcard = E.toWildcard
  unknown : E'.unknown = E.unknown
  unknownSettled : ∀ u, E.unknown = some u → Settled E u
  values : ∀ wc items, Gives E wc items → items ≠ [] → ∃ items', Gives E' wc items' ∧ items.Sublist items' ∧
    (∀ i, i ∈ items → ∀ c, E.parse i.content = .ok c → Settled E c) ∧
    ∀ i, i ∈ items' → 0 ≤ i.weight.getD 1 ∧ i.content ≠ [] ∧ ∃ c, E.parse i.content = .ok c

end Verif.Spec
