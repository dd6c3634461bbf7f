import Verif.Spec.Chances
import Mathlib.Data.Real.Basic
/-!
# Fair sources of random numbers

`pr` assigns a probability to every property of the initial state of the source.  The source is fair
if successive draws are uniform and independent.
-/

namespace Verif.Spec
open Verif

/-- A fair source of random numbers: an event has the product of the chances of its draws as probability. -/
structure Fair {W : Type} (r : Rng W) (pr : (W → Prop) → ℝ) : Prop where
  nonneg : ∀ A, 0 ≤ pr A
  add : ∀ A B, (∀ w, A w → ¬ B w) → pr (fun w => A w ∨ B w) = pr A + pr B
  event : ∀ e : Event, (∀ c ∈ e, c.Proper) → pr (fun w => Event.happens r e w = true) = (Event.chance e : ℝ)

end Verif.Spec
