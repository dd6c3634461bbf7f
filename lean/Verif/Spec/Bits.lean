import Verif.Spec.Fair
import Verif.Model.Bits
/-!
# Fair bits
-/

namespace Verif.Spec
open Verif
variable {W : Type}

/-- How successive calls of `getrandbits` come out: numbers of bits and results. -/
abbrev BitEvent := List (Nat × Nat)

/-- If the next calls come out as the event says, the state after them. -/
def BitEvent.after (b : Bits W) : BitEvent → W → Option W
  | [], w => some w
  | (k, v) :: e, w => if (b.bits k w).1.val = v then BitEvent.after b e (b.bits k w).2 else none

/-- The next calls come out as the event says. -/
def BitEvent.happens (b : Bits W) (e : BitEvent) (w : W) : Prop := (e.after b w).isSome = true

/-- All bits are independent, and zero or one with equal chances. -/
structure FairBits (b : Bits W) (pr : (W → Prop) → ℝ) : Prop where
  nonneg : ∀ A, 0 ≤ pr A
  add : ∀ A B, (∀ w, A w → ¬ B w) → pr (fun w => A w ∨ B w) = pr A + pr B
  event : ∀ e : BitEvent, (∀ x ∈ e, x.2 < 2 ^ x.1) → pr (e.happens b) = (e.map fun x => (1 / 2 : ℝ) ^ x.1).prod

/-- How many numbers from [0, 1) are drawn in an event. -/
def Event.units (e : Event) : Nat := e.countP fun | .unit _ _ => true | .below _ _ => false

/-- A source of random numbers whose integers are uniform, and whose numbers in [0, 1) fall into each interval with its
length as probability up to `ε`, all independent. -/
structure NearlyFair (r : Rng W) (pr : (W → Prop) → ℝ) (ε : ℝ) : Prop where
  nonneg : ∀ A, 0 ≤ pr A
  add : ∀ A B, (∀ w, A w → ¬ B w) → pr (fun w => A w ∨ B w) = pr A + pr B
  event : ∀ e : Event, (∀ c ∈ e, c.Proper) → |pr (fun w => Event.happens r e w = true) - (Event.chance e : ℝ)| ≤ e.units * ε

end Verif.Spec
