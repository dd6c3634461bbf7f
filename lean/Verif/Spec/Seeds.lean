import Verif.Model.Generators
/-!
# What seeding means
-/

namespace Verif.Spec
open Verif
variable {W : Type}

/-- The random generator is re-seeded with `s` and directly after that the next prompt is taken, for
every seed of the list in turn; each seed gives one prompt. -/
inductive SeededRun (E : Env W) (fuel : Nat) (reseed : Int → W → W) :
    Gen → W → List Int → List Str → W → Prop
  | nil {g w} : SeededRun E fuel reseed g w [] [] w
  | cons {g w s v g' w1 ss vs w'} :
      nextG E fuel g (reseed s w) = .ok (some (v, g')) w1 →
      SeededRun E fuel reseed g' w1 ss vs w' →
      SeededRun E fuel reseed g w (s :: ss) (v :: vs) w'

/-- The iteration produced exactly these prompts and then stopped or reached the limit, without an
exception. -/
def Finished (x : List Str × Stop W) (ps : List Str) (w' : W) : Prop :=
  x.1 = ps ∧ ((∃ g, x.2 = .limit g w') ∨ x.2 = .stop w')

end Verif.Spec
