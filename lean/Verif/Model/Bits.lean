import Verif.Model.Monad
import Mathlib.Data.Nat.Size
import Mathlib.Tactic.Positivity
import Mathlib.Tactic.Linarith
import Mathlib.Tactic.NormNum
import Mathlib.Tactic.Ring
/-!
# Random numbers from random bits

How CPython's `random.Random` makes `_randbelow` and `random` from random bits: the source in `constants.py:8`
(`DEFAULT_RANDOM = Random()`), used through `randint` (`samplers/random.py:50`), `choices` (`utils.py:95`,
`jinja_extensions.py:22`), `choice` (`jinja_extensions.py:17`, `generators/attentiongenerator.py:93`) and `shuffle`
(`wildcards/values.py:77-83`).
-/

namespace Verif

/-- A source of random bits, `getrandbits(k)` of the `Random` in `constants.py:8`; the Mersenne Twister behind it is
arbitrary here. -/
structure Bits (W : Type) where
  bits : (k : Nat) → W → Fin (2 ^ k) × W

variable {W : Type}

/-- The state after `j` calls of `getrandbits(k)` of the `Random` in `constants.py:8`. -/
def Bits.skip (b : Bits W) (k : Nat) : Nat → W → W
  | 0, w => w
  | j + 1, w => b.skip k j (b.bits k w).2

open Classical in
/-- Behind `randint`, `choice` and `shuffle` (`samplers/random.py:50`, `jinja_extensions.py:17`,
`wildcards/values.py:77-83`): CPython `random.py` `_randbelow_with_getrandbits(n + 1)`: `k = n.bit_length(); r = getrandbits(k)`, and
`while r >= n: r = getrandbits(k)`.  If no attempt ever succeeds, the loop in the code does not end; here the result is 0
then (a fair source does this with probability 0). -/
noncomputable def Bits.below (b : Bits W) (n : Nat) (w : W) : Fin (n + 1) × W :=
  if h : ∃ j, (b.bits (n + 1).size (b.skip (n + 1).size j w)).1.val < n + 1 then
    (⟨(b.bits (n + 1).size (b.skip (n + 1).size (Nat.find h) w)).1.val, Nat.find_spec h⟩,
      (b.bits (n + 1).size (b.skip (n + 1).size (Nat.find h) w)).2)
  else (0, w)

/-- A number with `i + j` binary places, the first `i` and the last `j` of them drawn (for `random()`, see `Bits.unit`). -/
def Bits.places (b : Bits W) (i j : Nat) (w : W) : {q : Rat // 0 ≤ q ∧ q < 1} × W :=
  (⟨(((b.bits i w).1.val * 2 ^ j + (b.bits j (b.bits i w).2).1.val : Nat) : Rat) / 2 ^ (i + j), by positivity, by
    rw [div_lt_one (by positivity)]
    have h1 := (b.bits i w).1.isLt
    have h2 := (b.bits j (b.bits i w).2).1.isLt
    have h3 : (b.bits i w).1.val * 2 ^ j + (b.bits j (b.bits i w).2).1.val < 2 ^ (i + j) := by
      rw [pow_add]
      calc _ < (b.bits i w).1.val * 2 ^ j + 2 ^ j := by omega
        _ = ((b.bits i w).1.val + 1) * 2 ^ j := by ring
        _ ≤ 2 ^ i * 2 ^ j := Nat.mul_le_mul_right _ h1
    exact_mod_cast h3⟩, (b.bits j (b.bits i w).2).2)

/-- Behind `choices` (`utils.py:95`, `jinja_extensions.py:22`): CPython `_randommodule.c` `_random_Random_random_impl`: `a = genrand_uint32() >> 5, b = genrand_uint32() >> 6`, result
`(a * 67108864.0 + b) * (1.0 / 9007199254740992.0)`; `getrandbits(27)` and `getrandbits(26)` are the same shifts. -/
def Bits.unit (b : Bits W) (w : W) : {q : Rat // 0 ≤ q ∧ q < 1} × W := b.places 27 26 w

/-- `Random()` (`constants.py:8`): the source of random numbers made from bits. -/
noncomputable def Bits.rng (b : Bits W) (arith : Arith) : Rng W where
  arith := arith
  below := b.below
  unit := b.unit

end Verif
