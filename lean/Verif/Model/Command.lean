import Verif.Py.Str
/-!
# Commands (`src/dynamicprompts/commands/`, `src/dynamicprompts/enums.py`)
-/

namespace Verif

/-- Models `src/dynamicprompts/enums.py:4-7` `SamplingMethod`. -/
inductive Method where
  | random | comb | cyc
deriving DecidableEq, Repr

/-- Models `src/dynamicprompts/enums.py:9-13` `is_nonfinite`. -/
def Method.nonfinite : Method → Bool
  | .random => true
  | .cyc => true
  | .comb => false

/-- A template command. The constructors are the dataclasses of `src/dynamicprompts/commands/`:
`lit` literal_command.py:9-12, `seq` sequence_command.py:9-13, `variant` variant_command.py:14-26
(an option is its value and weight; weights are rationals instead of floats), `wild`
wildcard_command.py:9-13 (a path is a string or a command; the variables dict is an association
list, so two dicts with the same entries in different order count as different), `assign`
variable_commands.py:8-14, `access` variable_commands.py:17-21, `wrap` wrap_command.py:41-45. -/
inductive Cmd where
  | lit (s : Str) (m : Option Method)
  | seq (toks : List Cmd) (sep : Str) (m : Option Method)
  | variant (opts : List (Cmd × Rat)) (lo hi : Int) (sep : Str) (m : Option Method)
  | wild (path : Str ⊕ Cmd) (m : Option Method) (vars : List (Str × Cmd))
  | assign (name : Str) (value : Cmd) (immediate overwrite : Bool)
  | access (name : Str) (default : Option Cmd)
  | wrap (wrapper inner : Cmd) (m : Option Method)

mutual
/-- Boolean equality of commands: dataclass `__eq__` (same class and equal fields). -/
def Cmd.beq : Cmd → Cmd → Bool
  | .lit s m, .lit s' m' => s == s' && m == m'
  | .seq t s m, .seq t' s' m' => Cmd.beqL t t' && s == s' && m == m'
  | .variant o l h s m, .variant o' l' h' s' m' =>
      Cmd.beqO o o' && l == l' && h == h' && s == s' && m == m'
  | .wild (.inl p) m v, .wild (.inl p') m' v' => p == p' && m == m' && Cmd.beqV v v'
  | .wild (.inr p) m v, .wild (.inr p') m' v' => Cmd.beq p p' && m == m' && Cmd.beqV v v'
  | .assign n v i o, .assign n' v' i' o' => n == n' && Cmd.beq v v' && i == i' && o == o'
  | .access n none, .access n' none => n == n'
  | .access n (some d), .access n' (some d') => n == n' && Cmd.beq d d'
  | .wrap w i m, .wrap w' i' m' => Cmd.beq w w' && Cmd.beq i i' && m == m'
  | _, _ => false
/-- Equality of lists of commands. -/
def Cmd.beqL : List Cmd → List Cmd → Bool
  | [], [] => true
  | a :: as, b :: bs => Cmd.beq a b && Cmd.beqL as bs
  | _, _ => false
/-- Equality of lists of variant options. -/
def Cmd.beqO : List (Cmd × Rat) → List (Cmd × Rat) → Bool
  | [], [] => true
  | (a, x) :: as, (b, y) :: bs => Cmd.beq a b && x == y && Cmd.beqO as bs
  | _, _ => false
/-- Equality of lists of variable bindings. -/
def Cmd.beqV : List (Str × Cmd) → List (Str × Cmd) → Bool
  | [], [] => true
  | (x, a) :: as, (y, b) :: bs => x == y && Cmd.beq a b && Cmd.beqV as bs
  | _, _ => false
end

mutual
theorem Cmd.beq_eq : ∀ a b : Cmd, Cmd.beq a b = true → a = b
  | .lit s m, b, h => by cases b <;> simp_all [Cmd.beq]
  | .seq t s m, b, h => by
      cases b <;> simp only [Cmd.beq, Bool.and_eq_true, beq_iff_eq, Bool.false_eq_true] at h
      rw [Cmd.beqL_eq _ _ h.1.1, h.1.2, h.2]
  | .variant o l hh s m, b, h => by
      cases b <;> simp only [Cmd.beq, Bool.and_eq_true, beq_iff_eq, Bool.false_eq_true] at h
      rw [Cmd.beqO_eq _ _ h.1.1.1.1, h.1.1.1.2, h.1.1.2, h.1.2, h.2]
  | .wild (.inl p) m v, b, h => by
      rcases b with _ | _ | _ | ⟨_ | _, _, _⟩ | _ | _ | _ <;>
        simp only [Cmd.beq, Bool.and_eq_true, beq_iff_eq, Bool.false_eq_true] at h
      rw [Cmd.beqV_eq _ _ h.2, h.1.2, h.1.1]
  | .wild (.inr p) m v, b, h => by
      rcases b with _ | _ | _ | ⟨_ | _, _, _⟩ | _ | _ | _ <;>
        simp only [Cmd.beq, Bool.and_eq_true, beq_iff_eq, Bool.false_eq_true] at h
      rw [Cmd.beqV_eq _ _ h.2, h.1.2, Cmd.beq_eq _ _ h.1.1]
  | .assign n v i o, b, h => by
      cases b <;> simp only [Cmd.beq, Bool.and_eq_true, beq_iff_eq, Bool.false_eq_true] at h
      rw [h.1.1.1, Cmd.beq_eq _ _ h.1.1.2, h.1.2, h.2]
  | .access n none, b, h => by
      rcases b with _ | _ | _ | _ | _ | ⟨_, _ | _⟩ | _ <;>
        simp only [Cmd.beq, beq_iff_eq, Bool.false_eq_true] at h
      rw [h]
  | .access n (some d), b, h => by
      rcases b with _ | _ | _ | _ | _ | ⟨_, _ | _⟩ | _ <;>
        simp only [Cmd.beq, Bool.and_eq_true, beq_iff_eq, Bool.false_eq_true] at h
      rw [h.1, Cmd.beq_eq _ _ h.2]
  | .wrap w i m, b, h => by
      cases b <;> simp only [Cmd.beq, Bool.and_eq_true, beq_iff_eq, Bool.false_eq_true] at h
      rw [Cmd.beq_eq _ _ h.1.1, Cmd.beq_eq _ _ h.1.2, h.2]
theorem Cmd.beqL_eq : ∀ a b : List Cmd, Cmd.beqL a b = true → a = b
  | [], b, h => by cases b <;> simp_all [Cmd.beqL]
  | a :: as, b, h => by
      cases b <;> simp only [Cmd.beqL, Bool.and_eq_true, Bool.false_eq_true] at h
      rw [Cmd.beq_eq _ _ h.1, Cmd.beqL_eq _ _ h.2]
theorem Cmd.beqO_eq : ∀ a b : List (Cmd × Rat), Cmd.beqO a b = true → a = b
  | [], b, h => by cases b <;> simp_all [Cmd.beqO]
  | (a, x) :: as, b, h => by
      rcases b with _ | ⟨⟨_, _⟩, _⟩ <;>
        simp only [Cmd.beqO, Bool.and_eq_true, beq_iff_eq, Bool.false_eq_true] at h
      rw [Cmd.beq_eq _ _ h.1.1, h.1.2, Cmd.beqO_eq _ _ h.2]
theorem Cmd.beqV_eq : ∀ a b : List (Str × Cmd), Cmd.beqV a b = true → a = b
  | [], b, h => by cases b <;> simp_all [Cmd.beqV]
  | (x, a) :: as, b, h => by
      rcases b with _ | ⟨⟨_, _⟩, _⟩ <;>
        simp only [Cmd.beqV, Bool.and_eq_true, beq_iff_eq, Bool.false_eq_true] at h
      rw [h.1.1, Cmd.beq_eq _ _ h.1.2, Cmd.beqV_eq _ _ h.2]
end

mutual
theorem Cmd.beq_refl : ∀ a : Cmd, Cmd.beq a a = true
  | .lit s m => by simp [Cmd.beq]
  | .seq t s m => by simp [Cmd.beq, Cmd.beqL_refl t]
  | .variant o l hh s m => by simp [Cmd.beq, Cmd.beqO_refl o]
  | .wild (.inl p) m v => by simp [Cmd.beq, Cmd.beqV_refl v]
  | .wild (.inr p) m v => by simp [Cmd.beq, Cmd.beq_refl p, Cmd.beqV_refl v]
  | .assign n v i o => by simp [Cmd.beq, Cmd.beq_refl v]
  | .access n none => by simp [Cmd.beq]
  | .access n (some d) => by simp [Cmd.beq, Cmd.beq_refl d]
  | .wrap w i m => by simp [Cmd.beq, Cmd.beq_refl w, Cmd.beq_refl i]
theorem Cmd.beqL_refl : ∀ a : List Cmd, Cmd.beqL a a = true
  | [] => by simp [Cmd.beqL]
  | a :: as => by simp [Cmd.beqL, Cmd.beq_refl a, Cmd.beqL_refl as]
theorem Cmd.beqO_refl : ∀ a : List (Cmd × Rat), Cmd.beqO a a = true
  | [] => by simp [Cmd.beqO]
  | (a, x) :: as => by simp [Cmd.beqO, Cmd.beq_refl a, Cmd.beqO_refl as]
theorem Cmd.beqV_refl : ∀ a : List (Str × Cmd), Cmd.beqV a a = true
  | [] => by simp [Cmd.beqV]
  | (x, a) :: as => by simp [Cmd.beqV, Cmd.beq_refl a, Cmd.beqV_refl as]
end

instance : DecidableEq Cmd := fun a b =>
  if h : Cmd.beq a b = true then isTrue (Cmd.beq_eq a b h)
  else isFalse (fun e => h (e ▸ Cmd.beq_refl a))

/-- The `sampling_method` attribute; `None` for the variable commands
(variable_commands.py:14 and :21). -/
def Cmd.method : Cmd → Option Method
  | .lit _ m => m
  | .seq _ _ m => m
  | .variant _ _ _ _ m => m
  | .wild _ m _ => m
  | .assign .. => none
  | .access .. => none
  | .wrap _ _ m => m

/-- Python truth value of a command: only `SequenceCommand` and `VariantCommand` define `__len__`
(sequence_command.py:15-16, variant_command.py:34-35), everything else is true. -/
def Cmd.truthy : Cmd → Bool
  | .seq toks _ _ => !toks.isEmpty
  | .variant opts _ _ _ _ => !opts.isEmpty
  | _ => true

/-- Models `src/dynamicprompts/commands/variant_command.py:28-32` `__post_init__`: the normalised
bounds of a variant. -/
def normBounds (lo hi : Int) : Int × Int := (max 0 (min lo hi), max lo hi)

/-- The constructor call `VariantCommand(...)`, variant_command.py:20-32. -/
def Cmd.mkVariant (opts : List (Cmd × Rat)) (lo hi : Int) (sep : Str) (m : Option Method) : Cmd :=
  .variant opts (normBounds lo hi).1 (normBounds lo hi).2 sep m

/-- Models `src/dynamicprompts/commands/variant_command.py:51-54` `adjust_range`: clip to the number
of options; `dataclasses.replace` runs `__post_init__` again. -/
def adjustBounds (n : Nat) (lo hi : Int) : Int × Int := normBounds (min lo n) (min hi n)

/-- Models `src/dynamicprompts/commands/variant_command.py:78-92` `get_value_combinations`
(in order of generation; values equal to the chosen one are removed). -/
def getCombos {α : Type} [DecidableEq α] : Nat → List α → List (List α)
  | 0, _ => [[]]
  | k + 1, values =>
    values.flatMap fun v => (getCombos k (values.filter (fun u => u ≠ v))).map (v :: ·)

/-- Python `range(lo, hi + 1)` as the list of bounds, for `0 ≤ lo`. -/
def boundRange (lo hi : Int) : List Nat :=
  (List.range (hi + 1 - lo).toNat).map (fun i => lo.toNat + i)

/-- All `(bound, combination)` pairs in the order the samplers visit them
(combinatorial.py:125-129, cycle.py:80-84). -/
def boundCombos {α : Type} [DecidableEq α] (values : List α) (lo hi : Int) : List (Nat × List α) :=
  (boundRange lo hi).flatMap fun b => (getCombos b values).map (fun c => (b, c))

end Verif
