import Verif.Spec.Laws
/-!
# A wildcard alone in braces
-/

namespace Verif.Spec
open Verif
variable {W : Type}

/-- The name of a wildcard, written as plain text. -/
structure PlainName (E : Env W) (name : Str) : Prop where
  nonempty : name ≠ []
  literal : E.parse name = .ok (.lit name none)
  squashed : squashIf E.ignoreWs name = name

/-- The choice of the values of a wildcard, written out: every value as often as its weight says, all with weight 1, the bounds
cut to the number of lines of the wildcard. -/
inductive ChoiceOfValues (E : Env W) (name : Str) (lo hi : Int) (sep : Str) (m : Option Method) : Cmd → Prop
  | mk {items cs} : Gives E name items → ParsesAll E (iterateWeighted items) cs →
      ChoiceOfValues E name lo hi sep m
        (.variant (cs.map fun c => (c, 1)) (max 0 (min (min lo items.length) (min hi items.length)))
          (max (min lo items.length) (min hi items.length)) sep m)

/-- A wildcard alone in braces is replaced by the choice of its values, which are one or more, or the other way round.  The weight
before the wildcard, its own sampling method and its parameters are not used. -/
inductive LoneWild (E : Env W) : Cmd → Cmd → Prop
  | unfold {name lo hi sep m m' v wt c} : PlainName E name → ChoiceOfValues E name lo hi sep m c → c.truthy = true →
      LoneWild E (.variant [(.wild (.inl name) m' v, wt)] lo hi sep m) c
  | fold {name lo hi sep m m' v wt c} : PlainName E name → ChoiceOfValues E name lo hi sep m c → c.truthy = true →
      LoneWild E c (.variant [(.wild (.inl name) m' v, wt)] lo hi sep m)

end Verif.Spec
