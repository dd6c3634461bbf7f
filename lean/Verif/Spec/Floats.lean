import Verif.Model.Monad
import Mathlib.Algebra.Order.Round
import Mathlib.Data.Rat.Floor
import Mathlib.Data.Int.Log
import Mathlib.Algebra.Order.Field.Basic
import Mathlib.Tactic.Linarith
import Mathlib.Tactic.FieldSimp
import Mathlib.Tactic.Ring
/-!
# Rounded arithmetic

Python computes with weights in binary floating point: numbers with `p` significant bits (`p = 53`), results rounded
to a nearest such number.  Neither the largest nor the smallest exponent is part of the specification.
-/

namespace Verif.Spec

/-- A number with at most `p` significant bits. -/
def Binary (p : Nat) (x : Rat) : Prop := ∃ m e : Int, |m| < 2 ^ p ∧ x = m * 2 ^ e

/-- `rnd` gives a nearest number with `p` significant bits. -/
structure Nearest (p : Nat) (rnd : Rat → Rat) : Prop where
  binary : ∀ x, Binary p (rnd x)
  nearest : ∀ x y, Binary p y → |rnd x - x| ≤ |y - x|

/-- The running sums of the weights, each rounded. -/
def roundedSums (rnd : Rat → Rat) : List Rat → List Rat
  | [] => []
  | w :: ws => ws.scanl (fun sum v => rnd (sum + v)) w

/-- The random number `q` draws option `i`: it is the first one whose running sum exceeds the rounded product of `q` and
the total. -/
def DrawsOption (rnd : Rat → Rat) (ws : List Rat) (q : Rat) (i : Nat) : Prop :=
  let sums := roundedSums rnd ws
  let x := rnd (q * sums.getLastD 0)
  (∀ j, j < i → sums.getD j 0 ≤ x) ∧ i < ws.length ∧ x < sums.getD i 0

end Verif.Spec
