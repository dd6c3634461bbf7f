import Verif.Proofs.Choose
import Mathlib.Algebra.Order.Ring.Rat
import Mathlib.Algebra.BigOperators.Group.List.Basic
import Mathlib.Algebra.Order.BigOperators.Group.List
import Mathlib.Tactic.Linarith
import Mathlib.Tactic.FieldSimp
/-! Lemmas about cumulative weights and binary search. -/

namespace Verif
variable {W α : Type}

theorem accumulateFrom_length (A : Arith) (acc : Rat) (ws : List Rat) :
    (accumulateFrom A acc ws).length = ws.length := by
  induction ws generalizing acc with
  | nil => rfl
  | cons w ws ih => simp [accumulateFrom, ih]

theorem accumulateFrom_getD (acc : Rat) (ws : List Rat) (i : Nat) (h : i < ws.length) :
    (accumulateFrom .exact acc ws).getD i 0 = acc + (ws.take (i + 1)).sum := by
  induction ws generalizing acc i with
  | nil => simp at h
  | cons w ws ih =>
    cases i with
    | zero => simp [accumulateFrom, Arith.exact]
    | succ i =>
      simp only [accumulateFrom, List.getD_cons_succ, List.take_succ_cons, List.sum_cons]
      rw [ih _ i (by simpa using h)]
      show acc + w + _ = _
      rw [add_assoc]

theorem accumulate_getD (ws : List Rat) (i : Nat) (h : i < ws.length) :
    (accumulate .exact ws).getD i 0 = (ws.take (i + 1)).sum := by
  cases ws with
  | nil => simp at h
  | cons w ws =>
    cases i with
    | zero => simp [accumulate]
    | succ i =>
      simp only [accumulate, List.getD_cons_succ, List.take_succ_cons, List.sum_cons]
      exact accumulateFrom_getD w ws i (by simpa using h)

theorem accumulate_length (A : Arith) (ws : List Rat) : (accumulate A ws).length = ws.length := by
  cases ws with
  | nil => rfl
  | cons w ws => simp [accumulate, accumulateFrom_length]

theorem accumulate_getLastD (ws : List Rat) : (accumulate .exact ws).getLastD 0 = ws.sum := by
  cases ws with
  | nil => simp [accumulate]
  | cons w ws =>
    have hl := accumulate_length .exact (w :: ws)
    have h1 := accumulate_getD (w :: ws) ws.length (by simp)
    rw [List.getLastD_eq_getLast?, List.getLast?_eq_getElem?, hl]
    rw [List.getD_eq_getElem?_getD] at h1
    simp only [List.length_cons, Nat.add_sub_cancel]
    rw [h1, List.take_of_length_le (by simp)]

theorem sum_take_mono {ws : List Rat} (h : ∀ x ∈ ws, 0 ≤ x) {i j : Nat} (hij : i ≤ j) :
    (ws.take i).sum ≤ (ws.take j).sum := by
  induction ws generalizing i j with
  | nil => simp
  | cons w ws ih =>
    cases i with
    | zero =>
      simp only [List.take_zero, List.sum_nil]
      exact List.sum_nonneg (fun x hx => h x (List.mem_of_mem_take hx))
    | succ i =>
      cases j with
      | zero => omega
      | succ j =>
        simp only [List.take_succ_cons, List.sum_cons]
        have := ih (fun x hx => h x (by simp [hx])) (i := i) (j := j) (by omega)
        linarith

theorem sum_take_le {ws : List Rat} (h : ∀ x ∈ ws, 0 ≤ x) (i : Nat) : (ws.take i).sum ≤ ws.sum := by
  have := sum_take_mono h (i := i) (j := max i ws.length) (by omega)
  rwa [List.take_of_length_le (by omega : ws.length ≤ max i ws.length)] at this

/-- `bisect_right` splits a non-decreasing list at the given number. -/
theorem bisectGo_spec (a : List Rat) (x : Rat) (n lo hi : Nat) (hn : hi - lo ≤ n) (hle : lo ≤ hi)
    (hmono : ∀ i j, i ≤ j → j < hi → a.getD i 0 ≤ a.getD j 0) :
    lo ≤ bisectGo a x n lo hi ∧ bisectGo a x n lo hi ≤ hi ∧
    (∀ j, lo ≤ j → j < bisectGo a x n lo hi → a.getD j 0 ≤ x) ∧
    (bisectGo a x n lo hi < hi → x < a.getD (bisectGo a x n lo hi) 0) := by
  induction n generalizing lo hi with
  | zero =>
    have : lo = hi := by omega
    subst this
    simp only [bisectGo]
    exact ⟨Nat.le_refl _, Nat.le_refl _, fun j h1 h2 => by omega, fun h => by omega⟩
  | succ n ih =>
    unfold bisectGo
    by_cases h : lo < hi
    · rw [if_pos h]
      dsimp only
      by_cases hx : x < a.getD ((lo + hi) / 2) 0
      · rw [if_pos hx]
        have hm : (lo + hi) / 2 < hi := by omega
        obtain ⟨h1, h2, h3, h4⟩ := ih lo ((lo + hi) / 2) (by omega) (by omega)
          (fun i j hij hj => hmono i j hij (by omega))
        refine ⟨h1, by omega, h3, fun _ => ?_⟩
        by_cases he : bisectGo a x n lo ((lo + hi) / 2) < (lo + hi) / 2
        · exact h4 he
        · have : bisectGo a x n lo ((lo + hi) / 2) = (lo + hi) / 2 := by omega
          rw [this]; exact hx
      · rw [if_neg hx]
        obtain ⟨h1, h2, h3, h4⟩ := ih ((lo + hi) / 2 + 1) hi (by omega) (by omega) hmono
        refine ⟨by omega, h2, fun j hj1 hj2 => ?_, h4⟩
        by_cases hj : (lo + hi) / 2 + 1 ≤ j
        · exact h3 j hj hj2
        · have := hmono j ((lo + hi) / 2) (by omega) (by omega)
          push Not at hx
          exact this.trans hx
    · rw [if_neg h]
      exact ⟨Nat.le_refl _, by omega, fun j h1 h2 => by omega, fun h' => by omega⟩

theorem weightedIndex_spec {ws : List Rat} (hw : ∀ x ∈ ws, 0 ≤ x) (hpos : 0 < ws.sum) {q : Rat}
    (h1 : q < 1) (h0 : 0 ≤ q) :
    weightedIndex .exact (accumulate .exact ws) q < ws.length ∧
    (ws.take (weightedIndex .exact (accumulate .exact ws) q)).sum ≤ q * ws.sum ∧
    q * ws.sum < (ws.take (weightedIndex .exact (accumulate .exact ws) q + 1)).sum := by
  have hne : ws ≠ [] := by rintro rfl; simp at hpos
  have hlen : 0 < ws.length := List.length_pos_iff.2 hne
  obtain ⟨-, a2, a3, a4⟩ := bisectGo_spec (accumulate .exact ws) (q * (accumulate .exact ws).getLastD 0)
    ((accumulate .exact ws).length - 1 - 0) 0 ((accumulate .exact ws).length - 1) (by omega) (by omega) (by
      intro i j hij hj
      rw [accumulate_length] at hj
      rw [accumulate_getD _ _ (by omega), accumulate_getD _ _ (by omega)]
      exact sum_take_mono hw (by omega))
  change weightedIndex .exact (accumulate .exact ws) q ≤ _ at a2
  change ∀ j, _ → j < weightedIndex .exact (accumulate .exact ws) q → _ at a3
  change weightedIndex .exact (accumulate .exact ws) q < _ → _ < (accumulate .exact ws).getD (weightedIndex .exact (accumulate .exact ws) q) 0 at a4
  generalize weightedIndex .exact (accumulate .exact ws) q = i at *
  rw [accumulate_length] at a2 a4
  rw [accumulate_getLastD] at a3 a4
  refine ⟨by omega, ?_, ?_⟩
  · cases i with
    | zero =>
      simp only [List.take_zero, List.sum_nil]
      exact mul_nonneg h0 hpos.le
    | succ i =>
      have := a3 i (by omega) (by omega)
      rwa [accumulate_getD _ _ (by omega)] at this
  · by_cases he : i < ws.length - 1
    · have := a4 he
      rwa [accumulate_getD _ _ (by omega)] at this
    · have : i + 1 = ws.length := by omega
      rw [this, List.take_length]
      nlinarith

/-! ### Any arithmetic -/

theorem accumulateFrom_succ (A : Arith) (acc : Rat) (ws : List Rat) (i : Nat) (h : i < ws.length) :
    (acc :: accumulateFrom A acc ws).getD (i + 1) 0 =
      A.plus ((acc :: accumulateFrom A acc ws).getD i 0) (ws.getD i 0) := by
  induction ws generalizing acc i with
  | nil => simp at h
  | cons w ws ih =>
    cases i with
    | zero => simp [accumulateFrom]
    | succ i =>
      have := ih (A.plus acc w) i (by simpa using h)
      simpa [accumulateFrom] using this

theorem accumulate_succ (A : Arith) (ws : List Rat) (i : Nat) (h : i + 1 < ws.length) :
    (accumulate A ws).getD (i + 1) 0 = A.plus ((accumulate A ws).getD i 0) (ws.getD (i + 1) 0) := by
  cases ws with
  | nil => simp at h
  | cons w ws => exact accumulateFrom_succ A w ws i (by simpa using h)

theorem accumulate_head (A : Arith) (ws : List Rat) : (accumulate A ws).getD 0 0 = ws.getD 0 0 := by
  cases ws <;> rfl

private theorem getD_nonneg {ws : List Rat} (hw : ∀ x ∈ ws, 0 ≤ x) (i : Nat) : 0 ≤ ws.getD i 0 := by
  rw [List.getD_eq_getElem?_getD]
  cases h : ws[i]? with
  | none => simp
  | some x => exact hw x (List.mem_of_getElem? h)

theorem accumulate_mono (A : Arith) {ws : List Rat} (hw : ∀ x ∈ ws, 0 ≤ x) {i j : Nat} (hij : i ≤ j)
    (hj : j < ws.length) : (accumulate A ws).getD i 0 ≤ (accumulate A ws).getD j 0 := by
  induction j with
  | zero => rw [show i = 0 by omega]
  | succ j ih =>
    by_cases h : i = j + 1
    · rw [h]
    · rw [accumulate_succ A ws j hj]
      exact (ih (by omega) (by omega)).trans (A.le_plus _ _ (getD_nonneg hw _))

theorem accumulate_nonneg (A : Arith) {ws : List Rat} (hw : ∀ x ∈ ws, 0 ≤ x) {i : Nat} (hi : i < ws.length) :
    0 ≤ (accumulate A ws).getD i 0 := by
  have := accumulate_mono A hw (Nat.zero_le i) hi
  rw [accumulate_head] at this
  exact (getD_nonneg hw 0).trans this

theorem accumulate_last (A : Arith) (ws : List Rat) :
    (accumulate A ws).getLastD 0 = (accumulate A ws).getD (ws.length - 1) 0 := by
  rw [List.getLastD_eq_getLast?, List.getLast?_eq_getElem?, accumulate_length, List.getD_eq_getElem?_getD]

theorem accumulate_last_pos (A : Arith) {ws : List Rat} (hw : ∀ x ∈ ws, 0 ≤ x) (hpos : ∃ x ∈ ws, 0 < x) :
    0 < (accumulate A ws).getLastD 0 := by
  obtain ⟨x, hx, hp⟩ := hpos
  obtain ⟨i, hi, rfl⟩ := List.getElem_of_mem hx
  have h1 : 0 < (accumulate A ws).getD i 0 := by
    have e : ws.getD i 0 = ws[i] := by simp [List.getD_eq_getElem?_getD, hi]
    cases i with
    | zero => rw [accumulate_head, e]; exact hp
    | succ i =>
      rw [accumulate_succ A ws i hi, e]
      exact A.plus_pos _ _ (accumulate_nonneg A hw (by omega)) hp
  rw [accumulate_last]
  exact lt_of_lt_of_le h1 (accumulate_mono A hw (by omega) (by omega))

theorem accumulate_last_zero (A : Arith) {ws : List Rat} (hw : ∀ x ∈ ws, x = 0) :
    (accumulate A ws).getLastD 0 = 0 := by
  cases ws with
  | nil => rfl
  | cons w ws =>
    have hall : ∀ i, i < (w :: ws).length → (accumulate A (w :: ws)).getD i 0 = 0 := by
      intro i
      have e : ∀ j, (w :: ws).getD j 0 = 0 := by
        intro j
        rw [List.getD_eq_getElem?_getD]
        cases h : (w :: ws)[j]? with
        | none => rfl
        | some x => exact hw x (List.mem_of_getElem? h)
      induction i with
      | zero => intro _; rw [accumulate_head, e]
      | succ i ih =>
        intro h
        rw [accumulate_succ A _ i h, e, A.plus_zero, ih (by omega)]
    rw [accumulate_last]
    exact hall _ (by simp)

/-- With weights that are not negative, the total computed with any arithmetic is positive exactly if the sum is. -/
theorem accumulate_last_pos_iff (A : Arith) {ws : List Rat} (hw : ∀ x ∈ ws, 0 ≤ x) :
    0 < (accumulate A ws).getLastD 0 ↔ ∃ x ∈ ws, 0 < x := by
  refine ⟨fun h => ?_, accumulate_last_pos A hw⟩
  by_contra hn
  push Not at hn
  rw [accumulate_last_zero A fun x hx => le_antisymm (hn x hx) (hw x hx)] at h
  exact lt_irrefl _ h

theorem sum_pos_iff {ws : List Rat} (hw : ∀ x ∈ ws, 0 ≤ x) : 0 < ws.sum ↔ ∃ x ∈ ws, 0 < x := by
  rw [← accumulate_getLastD]; exact accumulate_last_pos_iff .exact hw

theorem exists_pos_of_sum {ws : List Rat} (hpos : 0 < ws.sum) : ∃ x ∈ ws, 0 < x := by
  by_contra h
  push Not at h
  have : ∀ l : List Rat, (∀ x ∈ l, x ≤ 0) → l.sum ≤ 0 := by
    intro l
    induction l with
    | nil => intro _; simp
    | cons a l ih =>
      intro h
      have h1 := h a (by simp)
      have h2 := ih fun x hx => h x (by simp [hx])
      rw [List.sum_cons]; linarith
  exact absurd hpos (not_lt.2 (this ws h))

/-- With any arithmetic, a draw gives an option of positive weight. -/
theorem weightedIndex_pos (A : Arith) {ws : List Rat} (hw : ∀ x ∈ ws, 0 ≤ x) (hpos : ∃ x ∈ ws, 0 < x) {q : Rat}
    (h1 : q < 1) (h0 : 0 ≤ q) :
    ∃ h : weightedIndex A (accumulate A ws) q < ws.length, 0 < ws[weightedIndex A (accumulate A ws) q] := by
  have hne : ws ≠ [] := by rintro rfl; simp at hpos
  have hlen : 0 < ws.length := List.length_pos_iff.2 hne
  have ht := accumulate_last_pos A hw hpos
  have hx0 := A.times_nonneg q _ h0 ht.le
  have hx1 := A.times_lt q _ h0 h1 ht
  obtain ⟨-, a2, a3, a4⟩ := bisectGo_spec (accumulate A ws) (A.times q ((accumulate A ws).getLastD 0))
    ((accumulate A ws).length - 1 - 0) 0 ((accumulate A ws).length - 1) (by omega) (by omega) (by
      intro i j hij hj
      rw [accumulate_length] at hj
      exact accumulate_mono A hw hij (by omega))
  change weightedIndex A (accumulate A ws) q ≤ _ at a2
  change ∀ j, _ → j < weightedIndex A (accumulate A ws) q → _ at a3
  change weightedIndex A (accumulate A ws) q < _ → _ < (accumulate A ws).getD (weightedIndex A (accumulate A ws) q) 0 at a4
  generalize weightedIndex A (accumulate A ws) q = i at *
  rw [accumulate_length] at a2 a4
  have hi : i < ws.length := by omega
  refine ⟨hi, ?_⟩
  have hlt : A.times q ((accumulate A ws).getLastD 0) < (accumulate A ws).getD i 0 := by
    by_cases he : i < ws.length - 1
    · exact a4 he
    · rw [accumulate_last] at hx1 ⊢
      rwa [show i = ws.length - 1 by omega]
  refine lt_of_le_of_ne (hw _ (List.getElem_mem _)) fun hz => ?_
  have e : ws.getD i 0 = 0 := by simp [List.getD_eq_getElem?_getD, hi, ← hz]
  cases i with
  | zero => rw [accumulate_head, e] at hlt; exact absurd hlt (not_lt.2 hx0)
  | succ i =>
    rw [accumulate_succ A ws i hi, e, A.plus_zero] at hlt
    exact absurd hlt (not_lt.2 (a3 i (by omega) (by omega)))

end Verif
