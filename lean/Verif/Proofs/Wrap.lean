import Verif.Proofs.Text
/-! Helper lemmas about the wrap marker search and `dedupe`. -/

namespace Verif
open Spec

theorem isWrapMark_iff (c : Char) :
    isWrapMark c = true ↔ c.toNat ∈ [0x1801, 0x2026, 0x22ee, 0x22ef, 0x22f0, 0x22f1, 0xfe19] := by
  simp [isWrapMark, or_assoc]

theorem dot_not_mark : isWrapMark '.' = false := by decide

theorem takeWhile_append_eq {α} (p : α → Bool) (l : List α) :
    l.takeWhile p ++ l.drop (l.takeWhile p).length = l := by
  induction l with
  | nil => rfl
  | cons x xs ih => by_cases h : p x <;> simp [h, ih]

theorem length_le_takeWhile {α} (p : α → Bool) (m r : List α) (h : ∀ c ∈ m, p c = true) :
    m.length ≤ ((m ++ r).takeWhile p).length := by
  induction m with
  | nil => simp
  | cons x xs ih =>
    have hx := h x (by simp)
    have := ih (fun c hc => h c (by simp [hc]))
    simp [hx]
    exact this

theorem mem_takeWhile {α} (p : α → Bool) (l : List α) : ∀ c ∈ l.takeWhile p, p c = true := by
  induction l with
  | nil => simp
  | cons x xs ih =>
    by_cases h : p x
    · simpa [h] using ih
    · simp [h]

/-- A marker at the beginning of the string is recognised, and the recognised one is the longest. -/
theorem wrapMatchLen_max (m r : Str) (h : IsMark m) : m.length ≤ wrapMatchLen (m ++ r) ∧ 1 ≤ m.length := by
  rcases h with ⟨hne, hm⟩ | ⟨k, hk, rfl⟩
  · have hm' : ∀ c ∈ m, isWrapMark c = true := fun c hc => (isWrapMark_iff c).2 (hm c hc)
    have h1 := length_le_takeWhile isWrapMark m r hm'
    have : 1 ≤ m.length := List.length_pos_iff.2 hne
    refine ⟨?_, this⟩
    simp only [wrapMatchLen]
    rw [if_pos (by omega)]; exact h1
  · have h1 := length_le_takeWhile (· == '.') (List.replicate k '.') r (by
      intro c hc; simp [List.eq_of_mem_replicate hc])
    simp only [List.length_replicate] at h1 ⊢
    refine ⟨?_, by omega⟩
    have h0 : (List.replicate k '.' ++ r).takeWhile isWrapMark = [] := by
      cases k with
      | zero => omega
      | succ k => simp [List.replicate_succ, dot_not_mark]
    simp only [wrapMatchLen, h0]
    rw [if_neg (by simp), if_pos (by omega)]; exact h1

theorem wrapMatchLen_sound (s : Str) (h : 1 ≤ wrapMatchLen s) :
    ∃ m r, s = m ++ r ∧ IsMark m ∧ m.length = wrapMatchLen s := by
  simp only [wrapMatchLen] at h ⊢
  split at h
  · rename_i h1
    refine ⟨s.takeWhile isWrapMark, s.drop (s.takeWhile isWrapMark).length,
      (takeWhile_append_eq _ s).symm, Or.inl ⟨?_, ?_⟩, ?_⟩
    · intro h0; simp [h0] at h1
    · intro c hc; exact (isWrapMark_iff c).1 (mem_takeWhile _ _ c hc)
    · rw [if_pos h1]
  · rename_i h1
    split at h
    · rename_i h2
      refine ⟨s.takeWhile (· == '.'), s.drop (s.takeWhile (· == '.')).length,
        (takeWhile_append_eq _ s).symm, Or.inr ⟨_, h2, ?_⟩, ?_⟩
      · exact List.eq_replicate_iff.2 ⟨rfl, fun c hc => by simpa using mem_takeWhile _ _ c hc⟩
      · rw [if_neg h1, if_pos h2]
    · omega

theorem wrapSearch_none (s : Str) (h : wrapSearch s = none) :
    ∀ a m b, s = a ++ m ++ b → ¬ IsMark m := by
  induction s with
  | nil =>
    intro a m b he hm
    have : m = [] := by simp_all
    subst this
    have := (wrapMatchLen_max [] [] hm).2
    simp at this
  | cons c cs ih =>
    intro a m b he hm
    simp only [wrapSearch] at h
    split at h
    · simp at h
    · rename_i hn
      cases a with
      | nil =>
        have := wrapMatchLen_max m b hm
        rw [List.nil_append] at he
        rw [he] at hn
        omega
      | cons d a =>
        simp only [List.cons_append, List.cons.injEq] at he
        cases hw : wrapSearch cs with
        | none => exact ih hw a m b he.2 hm
        | some x => rw [hw] at h; simp at h

theorem wrapSearch_some (s p q : Str) (h : wrapSearch s = some (p, q)) :
    ∃ m, s = p ++ m ++ q ∧ IsMark m ∧
      (∀ a m' b, s = a ++ m' ++ b → IsMark m' → p.length ≤ a.length) ∧
      (∀ m' b, s = p ++ m' ++ b → IsMark m' → m'.length ≤ m.length) := by
  induction s generalizing p with
  | nil => simp [wrapSearch] at h
  | cons c cs ih =>
    simp only [wrapSearch] at h
    split at h
    · rename_i hn
      simp only [Option.some.injEq, Prod.mk.injEq] at h
      obtain ⟨rfl, rfl⟩ := h
      obtain ⟨m, r, hs, hm, hl⟩ := wrapMatchLen_sound _ hn
      refine ⟨m, ?_, hm, by simp, ?_⟩
      · have h2 : List.drop (wrapMatchLen (c :: cs)) (c :: cs) = r := by rw [← hl, hs]; simp
        rw [h2, hs]; simp
      · intro m' b he hm'
        have := (wrapMatchLen_max m' b hm').1
        rw [List.nil_append] at he
        rw [← he, ← hl] at this
        exact this
    · rename_i hn
      cases hw : wrapSearch cs with
      | none => rw [hw] at h; simp at h
      | some x =>
        obtain ⟨p', q'⟩ := x
        rw [hw] at h
        simp only [Option.some.injEq, Prod.mk.injEq] at h
        obtain ⟨rfl, rfl⟩ := h
        obtain ⟨m, hs, hm, hleft, hmax⟩ := ih p' hw
        refine ⟨m, by simp [hs], hm, ?_, ?_⟩
        · intro a m' b he hm'
          cases a with
          | nil =>
            have := wrapMatchLen_max m' b hm'
            rw [List.nil_append] at he
            rw [he] at hn
            omega
          | cons d a =>
            simp only [List.cons_append, List.cons.injEq] at he
            have := hleft a m' b he.2 hm'
            simp; omega
        · intro m' b he hm'
          simp only [List.cons_append, List.cons.injEq, true_and] at he
          exact hmax m' b he hm'

theorem wrapWith_eq (w inner : Str) : wrapWith w inner = (splitWrapper w).1 ++ inner ++ (splitWrapper w).2 := by
  simp [wrapWith, joined_nil_sep]

section dedupe
variable {α κ : Type} [BEq κ] [LawfulBEq κ] (key : α → κ)

omit [LawfulBEq κ] in
theorem dedupeAux_sublist (seen : List κ) (l : List α) : (dedupeAux key seen l).Sublist l := by
  induction l generalizing seen with
  | nil => exact List.Sublist.refl _
  | cons x xs ih =>
    simp only [dedupeAux]
    split
    · exact (ih seen).cons x
    · exact (ih _).cons_cons x

theorem dedupeAux_not_seen (seen : List κ) (l : List α) :
    ∀ x ∈ dedupeAux key seen l, key x ∉ seen := by
  induction l generalizing seen with
  | nil => simp [dedupeAux]
  | cons y ys ih =>
    simp only [dedupeAux]
    split
    · exact ih seen
    · rename_i h
      intro x hx
      rcases List.mem_cons.1 hx with rfl | hx
      · simpa using h
      · exact fun hh => ih _ x hx (by simp [hh])

theorem dedupeAux_nodup (seen : List κ) (l : List α) :
    ((dedupeAux key seen l).map key).Nodup := by
  induction l generalizing seen with
  | nil => simp [dedupeAux]
  | cons y ys ih =>
    simp only [dedupeAux]
    split
    · exact ih seen
    · simp only [List.map_cons, List.nodup_cons]
      refine ⟨?_, ih _⟩
      intro hm
      obtain ⟨x, hx, hk⟩ := List.mem_map.1 hm
      exact dedupeAux_not_seen key _ ys x hx (by simp [hk])

theorem dedupeAux_append (seen : List κ) (a b : List α) :
    dedupeAux key seen (a ++ b) =
      dedupeAux key seen a ++ dedupeAux key ((a.map key).reverse ++ seen) b := by
  induction a generalizing seen with
  | nil => simp [dedupeAux]
  | cons x xs ih =>
    simp only [List.cons_append, dedupeAux, List.map_cons, List.reverse_cons, List.append_assoc]
    split
    · rename_i h
      rw [ih]
      congr 1
      have h' : key x ∈ seen := by simpa using h
      clear ih
      generalize (xs.map key).reverse = r
      suffices ∀ s1 s2 : List κ, (∀ k, k ∈ s1 ↔ k ∈ s2) → dedupeAux key s1 b = dedupeAux key s2 b by
        apply this
        intro k
        simp only [List.mem_append, List.mem_cons]
        constructor
        · rintro (h | h) <;> simp [h]
        · rintro (h | rfl | h)
          · simp [h]
          · simp [h']
          · simp_all
      induction b with
      | nil => simp [dedupeAux]
      | cons y ys ihb =>
        intro s1 s2 hs
        simp only [dedupeAux, List.contains_iff_mem, hs]
        rw [ihb s1 s2 hs, ihb (key y :: s1) (key y :: s2) (by simp [hs])]
    · rw [ih]; simp

theorem dedupeAux_congr (b : List α) : ∀ s1 s2 : List κ, (∀ k, k ∈ s1 ↔ k ∈ s2) →
    dedupeAux key s1 b = dedupeAux key s2 b := by
  induction b with
  | nil => simp [dedupeAux]
  | cons y ys ihb =>
    intro s1 s2 hs
    simp only [dedupeAux, List.contains_iff_mem, hs]
    rw [ihb s1 s2 hs, ihb (key y :: s1) (key y :: s2) (by simp [hs])]

theorem dedupe_snoc (l : List α) (x : α) :
    dedupe key (l ++ [x]) = dedupe key l ++ (if (l.map key).contains (key x) then [] else [x]) := by
  have h : ((l.map key).reverse ++ []).contains (key x) = (l.map key).contains (key x) := by
    rw [Bool.eq_iff_iff]; simp
  simp only [dedupe, dedupeAux_append, dedupeAux, h]

theorem dedupeAux_self (seen : List κ) (l : List α) (hd : (l.map key).Nodup)
    (hs : ∀ x ∈ l, key x ∉ seen) : dedupeAux key seen l = l := by
  induction l generalizing seen with
  | nil => rfl
  | cons x xs ih =>
    simp only [dedupeAux]
    rw [if_neg (by simpa using hs x (by simp))]
    rw [ih]
    · simp at hd; exact hd.2
    · intro y hy
      simp only [List.mem_cons, not_or]
      refine ⟨?_, hs y (by simp [hy])⟩
      intro he
      simp only [List.map_cons, List.nodup_cons, List.mem_map] at hd
      exact hd.1 ⟨y, hy, he⟩

end dedupe
end Verif
