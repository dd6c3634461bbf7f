import Verif.Spec.Chances
import Verif.Spec.Lists
/-!
# The order of options
-/

namespace Verif.Spec
open Verif
variable {W : Type} {α : Type}

mutual
/-- The two commands differ only in the order in which the options of choices are written, at any depth, but not in what is
assigned to variables.  The options of a choice written in another order all differ; where it may pick more than one of them,
`ok` holds of the weights in their new order. -/
inductive Reordered (ok : List Rat → Prop) : Cmd → Cmd → Prop
  | same {c} : Reordered ok c c
  | seq {toks toks' sep m} : ReorderedAll ok toks toks' → Reordered ok (.seq toks sep m) (.seq toks' sep m)
  | variant {opts mid opts' lo hi sep m} : ReorderedInside ok opts mid → mid.Perm opts' → (opts.map (·.1)).Nodup →
      (opts'.map (·.1)).Nodup → (2 ≤ max lo hi → ok (opts'.map (·.2))) →
      Reordered ok (.variant opts lo hi sep m) (.variant opts' lo hi sep m)
  | wrap {w w' i i' m} : Reordered ok w w' → Reordered ok i i' → Reordered ok (.wrap w i m) (.wrap w' i' m)
/-- Lists of commands. -/
inductive ReorderedAll (ok : List Rat → Prop) : List Cmd → List Cmd → Prop
  | nil : ReorderedAll ok [] []
  | cons {c c' cs cs'} : Reordered ok c c' → ReorderedAll ok cs cs' → ReorderedAll ok (c :: cs) (c' :: cs')
/-- The options of a choice, still in the old order, with choices inside them reordered; the weights are the same. -/
inductive ReorderedInside (ok : List Rat → Prop) : List (Cmd × Rat) → List (Cmd × Rat) → Prop
  | nil : ReorderedInside ok [] []
  | cons {c c' x cs cs'} : Reordered ok c c' → ReorderedInside ok cs cs' →
      ReorderedInside ok ((c, x) :: cs) ((c', x) :: cs')
end

/-- Two templates which differ only in this way. -/
inductive ReorderedPrompt (E : Env W) (ok : List Rat → Prop) : Prompt → Prompt → Prop
  | cmd {c c'} : Reordered ok c c' → ReorderedPrompt E ok (.inr c) (.inr c')
  | text {t t' c c'} : t ≠ [] → t' ≠ [] → E.parse t = .ok c → E.parse t' = .ok c' → Reordered ok c c' →
      ReorderedPrompt E ok (.inl t) (.inl t')

end Verif.Spec
