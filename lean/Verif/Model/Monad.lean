import Verif.Model.Command
/-!
# Results, random numbers and weighted choice

`rand` (`random.Random`) is an arbitrary source with state `W`; the functions built on it follow
CPython's `random.py`.
-/

namespace Verif

/-- The exceptions the modelled code can raise. -/
inductive Err where
  | key (name : Str)          -- KeyError
  | recursion (name : Str)    -- RecursionError raised by the library
  | notImplemented            -- NotImplementedError
  | runtime                   -- RuntimeError (PEP 479: StopIteration inside a generator)
  | value                     -- ValueError
  | index                     -- IndexError
  | parse                     -- pyparsing's ParseException
  | attr                      -- AttributeError
  | os                        -- OSError (missing file)
  | stop                      -- StopIteration (outside of a generator)
  | generator                 -- GeneratorException
deriving DecidableEq, Repr

/-- Outcome of running code in world `W`: a value, an exception, or no answer within the fuel. -/
inductive Res (W α : Type) where
  | ok (a : α) (w : W)
  | err (e : Err) (w : W)
  | fuel
deriving DecidableEq

/-- Code that reads and changes the world (RNG state, caches) and may raise. -/
def M (W α : Type) := W → Res W α

namespace M
variable {W α β : Type}

/-- Return a value. -/
def pure (a : α) : M W α := fun w => .ok a w
/-- Sequential composition; exceptions and missing answers propagate. -/
def bind (x : M W α) (f : α → M W β) : M W β := fun w =>
  match x w with
  | .ok a w' => f a w'
  | .err e w' => .err e w'
  | .fuel => .fuel

instance : Monad (M W) where
  pure := M.pure
  bind := M.bind

/-- Raise an exception. -/
def raise (e : Err) : M W α := fun w => .err e w
/-- Code that never answers. -/
def diverge : M W α := fun _ => .fuel
/-- Code that does not touch the world. -/
def lift : Except Err α → M W α
  | .ok a => pure a
  | .error e => raise e
/-- Code given by a state transformer. -/
def ofState (f : W → α × W) : M W α := fun w => .ok (f w).1 (f w).2

end M

/-- Arithmetic of the weights.  Python adds and multiplies floating point numbers, which rounds: `plus` and `times` are
arbitrary functions with the laws of rounded addition and multiplication that matter here.  (Weights so large that their
sum is infinite and weights so small that a product with them loses digits are not modelled.)  Used by `random.choices`,
`wildcards/values.py:72,116-123`, `jinja_extensions.py:22`, `utils.py` (`choose_without_replacement`). -/
structure Arith where
  /-- the float sum of two weights -/
  plus : Rat → Rat → Rat
  /-- the float product of a random number and a weight -/
  times : Rat → Rat → Rat
  plus_zero : ∀ a, plus a 0 = a
  le_plus : ∀ a b, 0 ≤ b → a ≤ plus a b
  plus_pos : ∀ a b, 0 ≤ a → 0 < b → 0 < plus a b
  times_nonneg : ∀ u t, 0 ≤ u → 0 ≤ t → 0 ≤ times u t
  times_lt : ∀ u t, 0 ≤ u → u < 1 → 0 < t → times u t < t

/-- Arithmetic without rounding. -/
def Arith.exact : Arith where
  plus a b := a + b
  times u t := u * t
  plus_zero := Rat.add_zero
  le_plus a b h := by
    have := (Rat.add_le_add_left (a := 0) (b := b) (c := a)).2 h
    rwa [Rat.add_zero] at this
  plus_pos a b h h' := by
    have := (Rat.add_le_add_left (a := 0) (b := a) (c := b)).2 h
    grind
  times_nonneg _ _ := Rat.mul_nonneg
  times_lt u t _ h' h := by
    have := Rat.mul_lt_mul_of_pos_right (a := u) (b := 1) (c := t) h' h
    rwa [Rat.one_mul] at this

/-- A source of random numbers: `_randbelow(n+1)` and `random()` of CPython's `random.Random`, and the arithmetic
with which it weighs. -/
structure Rng (W : Type) where
  /-- how weights are added and multiplied -/
  arith : Arith
  /-- `_randbelow(n + 1)`, a number below `n + 1` -/
  below : (n : Nat) → W → Fin (n + 1) × W
  /-- `random()`, a number in [0, 1) -/
  unit : W → {q : Rat // 0 ≤ q ∧ q < 1} × W

variable {W : Type}

/-- CPython `random.randint(a, b)` for `a ≤ b`: `a + _randbelow(b - a + 1)`. -/
def Rng.randint (r : Rng W) (a b : Int) : M W Int := fun w =>
  if a ≤ b then
    let x := r.below (b - a).toNat w
    .ok (a + (x.1.val : Int)) x.2
  else .err .value w

/-- CPython `random.choice(seq)`: `seq[_randbelow(len(seq))]`, IndexError on an empty sequence. -/
def Rng.choice {α : Type} (r : Rng W) (l : List α) : M W α := fun w =>
  match l with
  | [] => .err .index w
  | a :: as =>
    let x := r.below as.length w
    .ok ((a :: as).getD x.1.val a) x.2

/-- Loop of CPython `bisect.bisect_right` (`bisect.py:21-49`), fuel is at least `hi - lo`. -/
def bisectGo (a : List Rat) (x : Rat) : Nat → Nat → Nat → Nat
  | 0, lo, _ => lo
  | n + 1, lo, hi =>
    if lo < hi then
      let mid := (lo + hi) / 2
      if x < a.getD mid 0 then bisectGo a x n lo mid else bisectGo a x n (mid + 1) hi
    else lo

/-- CPython `bisect.bisect_right(a, x, lo, hi)`. -/
def bisectRight (a : List Rat) (x : Rat) (lo hi : Nat) : Nat := bisectGo a x (hi - lo) lo hi

/-- The rest of `itertools.accumulate` of a list of weights after the sum `acc`. -/
def accumulateFrom (A : Arith) (acc : Rat) : List Rat → List Rat
  | [] => []
  | x :: xs => A.plus acc x :: accumulateFrom A (A.plus acc x) xs

/-- `list(itertools.accumulate(weights))`: the first weight, then the sums. -/
def accumulate (A : Arith) : List Rat → List Rat
  | [] => []
  | x :: xs => x :: accumulateFrom A x xs

/-- One draw of CPython `random.choices(population, cum_weights=cum)`: the index for a given
random number. -/
def weightedIndex (A : Arith) (cum : List Rat) (q : Rat) : Nat :=
  bisectRight cum (A.times q (cum.getLastD 0)) 0 (cum.length - 1)

/-- CPython `random.choices(population, cum_weights=cum, k=k)`, `random.py` (3.9 or later: a total
weight that is not positive raises ValueError). -/
def Rng.choicesCum {α : Type} (r : Rng W) (pop : List α) (cum : List Rat) : Nat → M W (List α)
  | 0 => fun w =>
      if cum.length ≠ pop.length then .err .value w
      else if cum.isEmpty then .err .index w
      else if cum.getLastD 0 ≤ 0 then .err .value w
      else .ok [] w
  | k + 1 => fun w =>
      if cum.length ≠ pop.length then .err .value w
      else if cum.isEmpty then .err .index w
      else if cum.getLastD 0 ≤ 0 then .err .value w
      else
        let x := r.unit w
        match pop[weightedIndex r.arith cum x.1.val]? with
        | none => .err .index x.2
        | some v => (do let vs ← r.choicesCum pop cum k; return v :: vs) x.2

/-- Loop of `choose_without_replacement`. Models `src/dynamicprompts/utils.py:93-99`: the weight
removed is the first weight *equal in value* to the chosen option's weight. -/
def chooseLoop {α : Type} [DecidableEq α] (r : Rng W) : Nat → List α → List Rat → M W (List α)
  | 0, _, _ => pure []
  | k + 1, values, weights => do
    let ch ← r.choicesCum values (accumulate r.arith weights) 1
    match ch with
    | [] => M.raise .index
    | chosen :: _ =>
      let rest ← chooseLoop r k (values.erase chosen)
        (weights.erase (weights.getD (values.idxOf chosen) 0))
      return chosen :: rest

/-- Models `src/dynamicprompts/utils.py:65-99` `choose_without_replacement`. -/
def chooseWithoutReplacement {α : Type} [DecidableEq α] (r : Rng W) (values : List α)
    (weights : List Rat) (numChoices : Int) : M W (List α) :=
  if (values.length : Int) < numChoices then M.raise .value
  else
    let weights := if weights.isEmpty then List.replicate values.length 1 else weights
    if values.length ≠ weights.length then M.raise .value
    else match values with
      | [] => pure []
      | [v] => pure [v]
      | _ => chooseLoop r numChoices.toNat values weights

/-- A wildcard value: a plain string or a `WildcardItem` with a weight
(`src/dynamicprompts/wildcards/item.py:4-7`). -/
structure Item where
  content : Str
  weight : Option Rat
deriving DecidableEq

/-- `getattr(item, "weight", 1)`, `src/dynamicprompts/wildcards/values.py:53`. -/
def Item.w (i : Item) : Rat := i.weight.getD 1

/-- Models `src/dynamicprompts/wildcards/values.py:43-57` `has_varied_weights`. -/
def hasVariedWeights (items : List Item) : Bool :=
  match items with
  | [] => false
  | i :: is => is.any (fun j => j.w ≠ i.w)

/-- Models `src/dynamicprompts/wildcards/values.py:92-103` `iterate_string_values_weighted`
(`int(weight)` truncates; `range` of a negative number is empty). -/
def iterateWeighted (items : List Item) : List Str :=
  items.flatMap fun i => List.replicate i.w.floor.toNat i.content

/-- Models `src/dynamicprompts/wildcards/values.py:66-72` `cum_weight_values`. -/
def cumWeights (A : Arith) (items : List Item) : List Rat := accumulate A (items.map Item.w)

/-- `next()` of the iterator of `src/dynamicprompts/wildcards/values.py:105-124`
`get_weighted_random_generator`; `buf` holds the values already drawn (ten at a time when the
weights vary). -/
def weightedNext (r : Rng W) (items : List Item) (buf : List Str) : M W (Str × List Str) :=
  if !hasVariedWeights items then do
    let v ← r.choice (items.map Item.content)
    return (v, [])
  else match buf with
    | v :: buf => pure (v, buf)
    | [] => do
      let vs ← r.choicesCum (items.map Item.content) (cumWeights r.arith items) 10
      match vs with
      | v :: buf => return (v, buf)
      | [] => M.raise .index

end Verif
