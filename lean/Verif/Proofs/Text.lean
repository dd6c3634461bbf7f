import Verif.Spec.Text
/-! Helper lemmas about the text functions. -/

namespace Verif
open Spec

theorem pyJoin_eq_intercalate (sep : Str) (l : List Str) : pyJoin sep l = List.intercalate sep l := by
  induction l with
  | nil => simp [pyJoin, List.intercalate]
  | cons x r ih =>
    cases r with
    | nil => simp [pyJoin, List.intercalate]
    | cons y r => simp [pyJoin, ih, List.intercalate, List.append_assoc]

theorem pyJoin_cons (sep x : Str) (l : List Str) (h : l ≠ []) :
    pyJoin sep (x :: l) = x ++ sep ++ pyJoin sep l := by
  cases l with
  | nil => exact absurd rfl h
  | cons y r => rfl

theorem pyJoin_nil_sep (l : List Str) : pyJoin [] l = l.flatten := by
  induction l with
  | nil => rfl
  | cons x r ih =>
    cases r with
    | nil => simp [pyJoin]
    | cons y r => simp [pyJoin, ih]

theorem splitAt1_ne_nil (p : Char → Bool) (s : Str) : splitAt1 p s ≠ [] := by
  cases s with
  | nil => simp [splitAt1]
  | cons c cs =>
    simp only [splitAt1]
    split
    · simp
    · cases splitAt1 p cs <;> simp [consHead]

theorem splitAt1_append_no (p : Char → Bool) (w s : Str) (h : ∀ c ∈ w, p c = false) :
    splitAt1 p (w ++ s) = (match splitAt1 p s with | [] => [w] | x :: xs => (w ++ x) :: xs) := by
  induction w with
  | nil =>
    have := splitAt1_ne_nil p s
    cases h' : splitAt1 p s <;> simp_all
  | cons c cs ih =>
    have hc : p c = false := h c (by simp)
    have ih := ih (fun d hd => h d (by simp [hd]))
    simp only [List.cons_append, splitAt1, hc, ih]
    have := splitAt1_ne_nil p s
    cases h' : splitAt1 p s <;> simp_all [consHead]

theorem pySplit_blank (s : Str) (h : Blank s) (r : Str) : pySplit (s ++ r) = pySplit r := by
  induction s with
  | nil => rfl
  | cons c cs ih =>
    have hc := h c (by simp)
    have := ih (fun d hd => h d (by simp [hd]))
    simp only [pySplit, List.cons_append, splitAt1, hc] at *
    simpa using this

theorem pySplit_nil : pySplit [] = [] := by simp [pySplit, splitAt1]

theorem pySplit_word (w : Str) (hw : Word w) (b r : Str) (hb : Blank b) (hbr : b ≠ [] ∨ r = []) :
    pySplit (w ++ (b ++ r)) = w :: pySplit r := by
  obtain ⟨hne, hns⟩ := hw
  cases b with
  | nil =>
    have hr : r = [] := by simpa using hbr
    subst hr
    have := splitAt1_append_no isSpace w [] hns
    simp only [splitAt1] at this
    simp only [List.append_nil] at this ⊢
    simp only [pySplit, this]
    cases w <;> simp_all [splitAt1]
  | cons c cs =>
    have hc := hb c (by simp)
    have hcs : pySplit (cs ++ r) = pySplit r := pySplit_blank cs (fun d hd => hb d (by simp [hd])) r
    have := splitAt1_append_no isSpace w ((c :: cs) ++ r) hns
    simp only [List.cons_append, splitAt1, hc, if_true] at this
    simp only [pySplit, List.cons_append, this] at *
    simp only [List.append_nil]
    rw [List.filter_cons_of_pos, hcs]
    cases w <;> simp_all

/-- The split of a string is determined by its words. -/
theorem pySplit_of_words {s : Str} {ws : List Str} (h : Words s ws) : pySplit s = ws := by
  induction h with
  | nil hb => simpa [pySplit_nil] using pySplit_blank _ hb []
  | one ha hw hb =>
    rw [List.append_assoc, pySplit_blank _ ha]
    have := pySplit_word _ hw _ [] hb (Or.inr rfl)
    simpa [pySplit_nil] using this
  | more ha hw hb hne _ _ ih =>
    rw [List.append_assoc, List.append_assoc, pySplit_blank _ ha,
      pySplit_word _ hw _ _ hb (Or.inl hne), ih]

theorem words_blank_append {a s : Str} {ws : List Str} (ha : Blank a) (h : Words s ws) :
    Words (a ++ s) ws := by
  have key : ∀ {b}, Blank b → Blank (a ++ b) := by
    intro b hb c hc
    rcases List.mem_append.1 hc with h | h
    · exact ha c h
    · exact hb c h
  cases h with
  | nil hb => exact .nil (key hb)
  | one h1 hw hb => simpa [List.append_assoc] using Words.one (key h1) hw hb
  | more h1 hw hb hne hws h' =>
    simpa [List.append_assoc] using Words.more (key h1) hw hb hne hws h'

theorem words_cons_nonspace {c : Char} (hc : isSpace c = false) (s : Str) (ws : List Str)
    (h : Words s ws) : ∃ ws', Words (c :: s) ws' := by
  have hw1 : Word [c] := ⟨by simp, by simp [hc]⟩
  cases h with
  | nil hb => exact ⟨_, by simpa using Words.one (a := []) (by simp [Blank]) hw1 hb⟩
  | @one a w b ha hw hb =>
    cases a with
    | nil =>
      have hw' : Word (c :: w) := ⟨by simp, by
        intro d hd
        rcases List.mem_cons.1 hd with h | h
        · exact h ▸ hc
        · exact hw.2 d h⟩
      exact ⟨_, by simpa using Words.one (a := []) (by simp [Blank]) hw' hb⟩
    | cons d a =>
      refine ⟨[c] :: [w], ?_⟩
      have := Words.more (a := []) (b := d :: a) (by simp [Blank]) hw1 ha (by simp) (by simp)
        (Words.one (a := []) (by simp [Blank]) hw hb)
      simpa [List.append_assoc] using this
  | @more a w b r ws ha hw hb hne hws h' =>
    cases a with
    | nil =>
      have hw' : Word (c :: w) := ⟨by simp, by
        intro d hd
        rcases List.mem_cons.1 hd with h | h
        · exact h ▸ hc
        · exact hw.2 d h⟩
      exact ⟨_, by simpa using Words.more (a := []) (by simp [Blank]) hw' hb hne hws h'⟩
    | cons d a =>
      refine ⟨[c] :: w :: ws, ?_⟩
      have := Words.more (a := []) (b := d :: a) (by simp [Blank]) hw1 ha (by simp) (by simp)
        (Words.more (a := []) (by simp [Blank]) hw hb hne hws h')
      simpa [List.append_assoc] using this

theorem words_exists (s : Str) : ∃ ws, Words s ws := by
  induction s with
  | nil => exact ⟨[], .nil (by simp [Blank])⟩
  | cons c s ih =>
    obtain ⟨ws, h⟩ := ih
    cases hc : isSpace c with
    | true => exact ⟨ws, by simpa using words_blank_append (a := [c]) (by simp [Blank, hc]) h⟩
    | false => exact words_cons_nonspace hc s ws h

theorem words_pySplit (s : Str) : Words s (pySplit s) := by
  obtain ⟨ws, h⟩ := words_exists s
  rw [pySplit_of_words h]; exact h

theorem words_mem {s : Str} {ws : List Str} (h : Words s ws) : ∀ w ∈ ws, Word w := by
  induction h with
  | nil _ => simp
  | one _ hw _ => simpa using hw
  | more _ hw _ _ _ _ ih =>
    intro w hm
    rcases List.mem_cons.1 hm with h | h
    · exact h ▸ hw
    · exact ih w h

theorem words_pyJoin (ws : List Str) (h : ∀ w ∈ ws, Word w) : Words (pyJoin [' '] ws) ws := by
  induction ws with
  | nil => exact .nil (by simp [Blank, pyJoin])
  | cons w ws ih =>
    have hw := h w (by simp)
    have ih := ih (fun v hv => h v (by simp [hv]))
    cases ws with
    | nil => simpa [pyJoin] using Words.one (a := []) (b := []) (by simp [Blank]) hw (by simp [Blank])
    | cons v vs =>
      have := Words.more (a := []) (b := [' ']) (by simp [Blank]) hw
        (by simp [Blank]; decide) (by simp) (by simp) ih
      simpa [pyJoin] using this

theorem startsWith_iff (s p : Str) : startsWith s p = true ↔ ∃ t, s = p ++ t := by
  rw [startsWith, List.isPrefixOf_iff_prefix]
  constructor
  · rintro ⟨t, ht⟩; exact ⟨t, ht.symm⟩
  · rintro ⟨t, ht⟩; exact ⟨t, ht.symm⟩

theorem endsWith_iff (s p : Str) : endsWith s p = true ↔ ∃ t, s = t ++ p := by
  rw [endsWith, List.isSuffixOf_iff_suffix]
  constructor
  · rintro ⟨t, ht⟩; exact ⟨t, ht.symm⟩
  · rintro ⟨t, ht⟩; exact ⟨t, ht.symm⟩

theorem removeprefix_append (p t : Str) : removeprefix (p ++ t) p = t := by
  unfold removeprefix
  have h : startsWith (p ++ t) p = true := (startsWith_iff _ _).2 ⟨t, rfl⟩
  cases p with
  | nil => simp
  | cons c p => rw [h]; simp

theorem removesuffix_append (p t : Str) : removesuffix (t ++ p) p = t := by
  unfold removesuffix
  have h : endsWith (t ++ p) p = true := (endsWith_iff _ _).2 ⟨t, rfl⟩
  cases p with
  | nil => simp
  | cons c p => simp [h]

theorem removeprefix_cases (s p : Str) :
    (∃ t, s = p ++ t ∧ removeprefix s p = t) ∨ ((¬ ∃ t, s = p ++ t) ∧ removeprefix s p = s) := by
  by_cases h : ∃ t, s = p ++ t
  · obtain ⟨t, rfl⟩ := h
    exact Or.inl ⟨t, rfl, removeprefix_append p t⟩
  · refine Or.inr ⟨h, ?_⟩
    have : startsWith s p = false := by
      cases hh : startsWith s p with
      | false => rfl
      | true => exact absurd ((startsWith_iff s p).1 hh) h
    simp [removeprefix, this]

theorem removesuffix_cases (s p : Str) :
    (∃ t, s = t ++ p ∧ removesuffix s p = t) ∨ ((¬ ∃ t, s = t ++ p) ∧ removesuffix s p = s) := by
  by_cases h : ∃ t, s = t ++ p
  · obtain ⟨t, rfl⟩ := h
    exact Or.inl ⟨t, rfl, removesuffix_append p t⟩
  · refine Or.inr ⟨h, ?_⟩
    have : endsWith s p = false := by
      cases hh : endsWith s p with
      | false => rfl
      | true => exact absurd ((endsWith_iff s p).1 hh) h
    simp [removesuffix, this]

theorem joined_nil_sep (l : List Str) : joined [] l = l.flatten := by
  match l with
  | [] => rfl
  | [x] => simp [joined]
  | x :: y :: r => simp only [joined, List.isEmpty_nil, if_true]; exact pyJoin_nil_sep _

end Verif
