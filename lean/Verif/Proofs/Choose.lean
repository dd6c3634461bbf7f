import Verif.Proofs.MonadLemmas
import Verif.Spec.Language
import Mathlib.Data.List.Nodup
import Mathlib.Data.List.Perm.Subperm
/-! Lemmas about random choice, combinations and bounds. -/

namespace Verif
open Spec
variable {W α : Type}

theorem randint_ok {r : Rng W} {a b k : Int} {w w' : W} (h : r.randint a b w = .ok k w') :
    a ≤ k ∧ k ≤ b := by
  unfold Rng.randint at h
  split at h
  · rename_i hab
    simp only [Res.ok.injEq] at h
    have := (r.below (b - a).toNat w).1.isLt
    omega
  · simp at h

theorem choice_ok {r : Rng W} {l : List α} {v : α} {w w' : W} (h : r.choice l w = .ok v w') :
    v ∈ l := by
  unfold Rng.choice at h
  cases l with
  | nil => simp at h
  | cons a as =>
    simp only [Res.ok.injEq] at h
    rw [← h.1]
    have hlt := (r.below as.length w).1.isLt
    rw [List.getD_eq_getElem?_getD, List.getElem?_eq_getElem (by simp)]
    exact List.getElem_mem _

theorem choicesCum_ok {r : Rng W} {pop : List α} {cum : List Rat} {k : Nat} {vs : List α} {w w' : W}
    (h : r.choicesCum pop cum k w = .ok vs w') : vs.length = k ∧ ∀ v ∈ vs, v ∈ pop := by
  induction k generalizing vs w w' with
  | zero =>
    simp only [Rng.choicesCum] at h
    split at h; · simp at h
    split at h; · simp at h
    split at h; · simp at h
    simp only [Res.ok.injEq] at h
    simp [← h.1]
  | succ k ih =>
    simp only [Rng.choicesCum] at h
    split at h; · simp at h
    split at h; · simp at h
    split at h; · simp at h
    split at h
    · simp at h
    · rename_i v hv
      obtain ⟨vs', w1, h1, h2⟩ := M.bind_ok.1 h
      simp only [M.pure_eq, Res.ok.injEq] at h2
      obtain ⟨h3, h4⟩ := ih h1
      rw [← h2.1]
      refine ⟨by simp [h3], ?_⟩
      intro x hx
      rcases List.mem_cons.1 hx with rfl | hx
      · exact List.mem_of_getElem? hv
      · exact h4 x hx

theorem chooseLoop_ok [DecidableEq α] {r : Rng W} {k : Nat} {values : List α} {weights : List Rat}
    {sel : List α} {w w' : W} (h : chooseLoop r k values weights w = .ok sel w') :
    sel.length = k ∧ sel.Subperm values := by
  induction k generalizing values weights sel w w' with
  | zero =>
    simp only [chooseLoop, M.pure_eq, Res.ok.injEq] at h
    rw [← h.1]
    exact ⟨rfl, List.nil_subperm⟩
  | succ k ih =>
    simp only [chooseLoop] at h
    obtain ⟨ch, w1, h1, h2⟩ := M.bind_ok.1 h
    have ⟨hlen, hmem⟩ := choicesCum_ok h1
    cases ch with
    | nil => simp at hlen
    | cons c cs =>
      obtain ⟨rest, w2, h3, h4⟩ := M.bind_ok.1 h2
      simp only [M.pure_eq, Res.ok.injEq] at h4
      obtain ⟨hl, hs⟩ := ih h3
      rw [← h4.1]
      have hc : c ∈ values := hmem c (by simp)
      refine ⟨by simp [hl], ?_⟩
      have := (List.subperm_cons c).2 hs
      exact this.trans (List.perm_cons_erase hc).symm.subperm

/-- Without replacement: the selected values are a sub-multiset of the given ones. -/
theorem choose_ok [DecidableEq α] {r : Rng W} {values : List α} {weights : List Rat} {k : Int}
    {sel : List α} {w w' : W} (h : chooseWithoutReplacement r values weights k w = .ok sel w') :
    sel.Subperm values ∧ (values.length ≠ 1 → 0 ≤ k → (sel.length : Int) = k) := by
  unfold chooseWithoutReplacement at h
  by_cases hk : (values.length : Int) < k
  · rw [if_pos hk] at h; simp at h
  · rw [if_neg hk] at h
    generalize (if weights.isEmpty = true then List.replicate values.length 1 else weights) = ws at h
    by_cases hw : values.length ≠ ws.length
    · rw [if_pos hw] at h; simp at h
    · rw [if_neg hw] at h
      match values, h with
      | [], h =>
        simp only [M.pure_eq, Res.ok.injEq] at h
        rw [← h.1]
        refine ⟨List.nil_subperm, ?_⟩
        intro _ h0; simp at hk ⊢; omega
      | [v], h =>
        simp only [M.pure_eq, Res.ok.injEq] at h
        rw [← h.1]
        exact ⟨List.Subperm.refl _, fun hc => absurd rfl hc⟩
      | a :: b :: l, h =>
        obtain ⟨hl, hs⟩ := chooseLoop_ok h
        refine ⟨hs, ?_⟩
        intro _ h0; rw [hl]; omega

theorem weightedNext_ok {r : Rng W} {items : List Item} {buf : List Str} {v : Str} {buf' : List Str}
    {w w' : W} (h : weightedNext r items buf w = .ok (v, buf') w')
    (hb : ∀ x ∈ buf, x ∈ items.map Item.content) :
    v ∈ items.map Item.content ∧ ∀ x ∈ buf', x ∈ items.map Item.content := by
  unfold weightedNext at h
  split at h
  · obtain ⟨v', w1, h1, h2⟩ := M.bind_ok.1 h
    simp only [M.pure_eq, Res.ok.injEq, Prod.mk.injEq] at h2
    rw [← h2.1.1, ← h2.1.2]
    exact ⟨choice_ok h1, by simp⟩
  · cases buf with
    | cons x buf =>
      simp only [M.pure_eq, Res.ok.injEq, Prod.mk.injEq] at h
      rw [← h.1.1, ← h.1.2]
      exact ⟨hb x (by simp), fun y hy => hb y (by simp [hy])⟩
    | nil =>
      obtain ⟨vs, w1, h1, h2⟩ := M.bind_ok.1 h
      have ⟨hlen, hmem⟩ := choicesCum_ok h1
      cases vs with
      | nil => simp at hlen
      | cons y ys =>
        simp only [M.pure_eq, Res.ok.injEq, Prod.mk.injEq] at h2
        rw [← h2.1.1, ← h2.1.2]
        exact ⟨hmem y (by simp), fun x hx => hmem x (by simp [hx])⟩

theorem mem_iterateWeighted {items : List Item} {v : Str} (h : v ∈ iterateWeighted items) :
    ∃ i ∈ items, v = i.content := by
  simp only [iterateWeighted, List.mem_flatMap] at h
  obtain ⟨i, hi, hv⟩ := h
  exact ⟨i, hi, List.eq_of_mem_replicate hv⟩

/-! ### Combinations -/

theorem mem_getCombos [DecidableEq α] {k : Nat} {values c : List α} :
    c ∈ getCombos k values ↔ c.length = k ∧ c.Nodup ∧ ∀ x ∈ c, x ∈ values := by
  induction k generalizing values c with
  | zero =>
    simp only [getCombos, List.mem_singleton]
    constructor
    · rintro rfl; simp
    · rintro ⟨h, -, -⟩; exact List.eq_nil_of_length_eq_zero h
  | succ k ih =>
    simp only [getCombos, List.mem_flatMap, List.mem_map]
    constructor
    · rintro ⟨v, hv, r, hr, rfl⟩
      obtain ⟨h1, h2, h3⟩ := ih.1 hr
      refine ⟨by simp [h1], ?_, ?_⟩
      · rw [List.nodup_cons]
        refine ⟨fun hm => ?_, h2⟩
        have := h3 v hm
        simp at this
      · intro x hx
        rcases List.mem_cons.1 hx with rfl | hx
        · exact hv
        · exact (List.mem_filter.1 (h3 x hx)).1
    · rintro ⟨h1, h2, h3⟩
      cases c with
      | nil => simp at h1
      | cons v r =>
        rw [List.nodup_cons] at h2
        refine ⟨v, h3 v (by simp), r, ih.2 ⟨by simpa using h1, h2.2, ?_⟩, rfl⟩
        intro x hx
        refine List.mem_filter.2 ⟨h3 x (by simp [hx]), ?_⟩
        simp only [decide_eq_true_eq]
        rintro rfl
        exact h2.1 hx

theorem getCombos_subperm [DecidableEq α] {k : Nat} {values c : List α} (h : c ∈ getCombos k values) :
    c.Subperm values :=
  List.subperm_of_subset (mem_getCombos.1 h).2.1 (mem_getCombos.1 h).2.2

theorem mem_boundRange {lo hi : Int} {b : Nat} (h0 : 0 ≤ lo) :
    b ∈ boundRange lo hi ↔ lo ≤ b ∧ (b : Int) ≤ hi := by
  simp only [boundRange, List.mem_map, List.mem_range]
  constructor
  · rintro ⟨i, hi, rfl⟩; omega
  · rintro ⟨h1, h2⟩; exact ⟨b - lo.toNat, by omega, by omega⟩

theorem mem_boundCombos [DecidableEq α] {values : List α} {lo hi : Int} {b : Nat} {c : List α}
    (h0 : 0 ≤ lo) : (b, c) ∈ boundCombos values lo hi ↔
      lo ≤ b ∧ (b : Int) ≤ hi ∧ c ∈ getCombos b values := by
  simp only [boundCombos, List.mem_flatMap, List.mem_map, mem_boundRange h0]
  constructor
  · rintro ⟨b', hb, c', hc, he⟩
    cases he
    exact ⟨hb.1, hb.2, hc⟩
  · rintro ⟨h1, h2, h3⟩
    exact ⟨b, ⟨h1, h2⟩, c, h3, rfl⟩

theorem adjust_nonneg (n : Nat) (lo hi : Int) : 0 ≤ (adjustBounds n lo hi).1 := by
  simp [adjustBounds, normBounds]; omega

theorem inBounds_of_adjust {n : Nat} {lo hi : Int} {k : Nat} (h1 : (adjustBounds n lo hi).1 ≤ k)
    (h2 : (k : Int) ≤ (adjustBounds n lo hi).2) : InBounds n lo hi k := by
  simp only [adjustBounds, normBounds, InBounds] at *
  omega

theorem inBounds_of_adjust2 {n : Nat} {lo hi : Int} {k : Nat}
    (h : InBounds n (adjustBounds n lo hi).1 (adjustBounds n lo hi).2 k) : InBounds n lo hi k := by
  simp only [adjustBounds, normBounds, InBounds] at *
  omega

theorem inBounds_of_norm {n : Nat} {lo hi : Int} {k : Nat}
    (h : InBounds n (normBounds lo hi).1 (normBounds lo hi).2 k) : InBounds n lo hi k := by
  simp only [normBounds, InBounds] at *
  omega

end Verif
