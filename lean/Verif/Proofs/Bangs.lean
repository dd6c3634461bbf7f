import Verif.Proofs.MagicText
/-!
# Exclamation marks in a list of phrases (C44)
-/

namespace Verif
open Verif.Spec

variable {isWord : Char → Bool}

/-! ## Replacing -/

/-- An occurrence of a text without `c` is on one side of a `c`. -/
theorem occurs_split {pat a b u v : Str} {c : Char} (hc : c ∉ pat) (h : u ++ pat ++ v = a ++ c :: b) :
    (∃ v', a = u ++ pat ++ v') ∨ ∃ u', u = a ++ c :: u' ∧ b = u' ++ pat ++ v := by
  rcases List.append_eq_append_iff.1 h with ⟨a', h1, h2⟩ | ⟨c', h1, h2⟩
  · exact .inl ⟨a', h1⟩
  · -- `u ++ pat = a ++ c'`, `c :: b = c' ++ v`
    rcases List.append_eq_append_iff.1 h1 with ⟨x, h3, h4⟩ | ⟨x, h3, h4⟩
    · -- `a = u ++ x`, `pat = x ++ c'`
      cases c' with
      | nil => exact .inl ⟨[], by simp [h3, h4]⟩
      | cons d c' =>
        simp at h2
        exact absurd (by rw [h4]; simp [h2.1]) hc
    · -- `u = a ++ x`, `c' = x ++ pat`
      cases x with
      | nil =>
        simp at h4
        subst h4
        cases c' with
        | nil => exact .inl ⟨[], by simp [h3]⟩
        | cons d c' =>
          simp at h2
          exact absurd (by simp [h2.1]) hc
      | cons d x =>
        subst h4
        simp at h2
        refine .inr ⟨x, ?_, ?_⟩
        · rw [h3, h2.1]
        · rw [h2.2]; simp

theorem Spec.Replaced.sep {pat new a a' b b' : Str} {c : Char} (hc : c ∉ pat) (ha : Replaced pat new a a')
    (hb : Replaced pat new b b') : Replaced pat new (a ++ c :: b) (a' ++ c :: b') := by
  induction ha with
  | none h =>
    rename_i a
    cases hb with
    | none h' =>
      refine .none ?_
      rintro ⟨u, v, huv⟩
      rcases occurs_split hc huv.symm with ⟨v', e⟩ | ⟨u', -, e⟩
      · exact h ⟨_, _, e⟩
      · exact h' ⟨_, _, e⟩
    | one hm hb =>
      rename_i x y y'
      have := Replaced.one (pat := pat) (new := new) (a := a ++ c :: x) (b := y) (b' := y') ?_ hb
      · simpa using this
      · intro u v huv
        have huv : u ++ pat ++ v = a ++ c :: (x ++ pat ++ y) := by rw [← huv]; simp
        rcases occurs_split hc huv with ⟨v', e⟩ | ⟨u', e1, e2⟩
        · exact absurd ⟨_, _, e⟩ h
        · have := hm _ _ e2
          rw [e1]
          simp
          omega
  | one hm _ ih =>
    rename_i x y y' _
    have := Replaced.one (pat := pat) (new := new) (a := x) (b := y ++ c :: b) (b' := y' ++ c :: b') ?_ ih
    · simpa using this
    · intro u v huv
      have huv : u ++ pat ++ v = (x ++ pat ++ y) ++ c :: b := by rw [← huv]; simp
      rcases occurs_split hc huv with ⟨v', e⟩ | ⟨u', e1, e2⟩
      · exact hm _ _ e
      · rw [e1]
        simp

theorem occurs_cons {d : Char} {ds u v b : Str} {c : Char} (hc : c ≠ d) (h : u ++ (d :: ds) ++ v = c :: b) :
    ∃ u', u = c :: u' ∧ b = u' ++ (d :: ds) ++ v := by
  cases u with
  | nil => simp at h; exact absurd h.1.symm hc
  | cons x u =>
    simp at h
    exact ⟨u, by rw [h.1], by rw [← h.2]; simp⟩

theorem Spec.Replaced.skip {d : Char} {ds new b b' : Str} {c : Char} (hc : c ≠ d) (hb : Replaced (d :: ds) new b b') :
    Replaced (d :: ds) new (c :: b) (c :: b') := by
  cases hb with
  | none h =>
    refine .none ?_
    rintro ⟨u, v, huv⟩
    obtain ⟨u', -, e⟩ := occurs_cons hc huv.symm
    exact h ⟨_, _, e⟩
  | one hm hb =>
    rename_i x y y'
    have := Replaced.one (pat := d :: ds) (new := new) (a := c :: x) (b := y) (b' := y') ?_ hb
    · simpa using this
    · intro u v huv
      have huv : u ++ (d :: ds) ++ v = c :: (x ++ (d :: ds) ++ y) := by rw [← huv]; simp
      obtain ⟨u', e1, e2⟩ := occurs_cons hc huv
      have := hm _ _ e2
      rw [e1]
      simp
      omega

theorem Spec.Replaced.unique {pat new s o o' : Str} (h : Replaced pat new s o) (h' : Replaced pat new s o') : o = o' := by
  induction h generalizing o' with
  | none h =>
    cases h' with
    | none => rfl
    | one => exact absurd ⟨_, _, rfl⟩ h
  | one hm _ ih =>
    rename_i x y y' _
    generalize hs : x ++ pat ++ y = s at h'
    cases h' with
    | none h => exact absurd ⟨_, _, hs.symm⟩ h
    | one hm' hb =>
      rename_i x2 y2 y2'
      have e : x.length = x2.length := le_antisymm (hm _ _ hs) (hm' _ _ hs.symm)
      simp only [List.append_assoc] at hs
      obtain ⟨rfl, hs⟩ := List.append_inj hs e
      have e2 : y = y2 := List.append_cancel_left (List.append_cancel_left hs)
      subst e2
      rw [ih hb]

/-- A text with marks occurs in another such text only at its end. -/
theorem marked_occurs {p q : Str} {n m : Nat} (hp : p ≠ []) (hp' : '!' ∉ p) (hq : '!' ∉ q) (hn : n ≠ 0)
    (h : Occurs (p ++ List.replicate n '!') (q ++ List.replicate m '!')) : n ≤ m ∧ p <:+ q := by
  obtain ⟨u, v, h⟩ := h
  have h : (u ++ p) ++ (List.replicate n '!' ++ v) = q ++ List.replicate m '!' := by rw [h]; simp
  rcases List.append_eq_append_iff.1 h with ⟨x, h1, h2⟩ | ⟨x, h1, h2⟩
  · cases x with
    | nil =>
      have := congrArg List.length h2
      simp at this h1
      exact ⟨by omega, ⟨u, h1.symm⟩⟩
    | cons d x =>
      obtain ⟨n, rfl⟩ : ∃ k, n = k + 1 := ⟨n - 1, by omega⟩
      simp [List.replicate_succ] at h2
      exact absurd (by rw [h1, ← h2.1]; simp) hq
  · rcases List.eq_nil_or_concat x with rfl | ⟨x, d, rfl⟩
    · have := congrArg List.length h2
      simp at this h1
      exact ⟨by omega, ⟨u, h1⟩⟩
    · have hd : d = '!' := by
        have : d ∈ List.replicate m '!' := by rw [h2]; simp
        exact List.eq_of_mem_replicate this
      obtain ⟨y, e, rfl⟩ : ∃ y e, p = y ++ [e] := ⟨p.dropLast, p.getLast hp, (List.dropLast_append_getLast hp).symm⟩
      have := congrArg List.getLast? h1
      simp at this
      exact absurd (by simp [this, hd]) hp'

/-! ## Lists of phrases -/

/-- The parts, with `, ` after each, and a last one. -/
def listing (ss : List Str) (last : Str) : Str := ss.flatMap (fun s => s ++ c!", ") ++ last

theorem listing_cons (s : Str) (ss : List Str) (last : Str) :
    listing (s :: ss) last = s ++ ',' :: ' ' :: listing ss last := by
  simp [listing]

theorem joinWith_listing (ss : List Str) (last : Str) : joinWith c!", " (ss ++ [last]) = listing ss last := by
  induction ss with
  | nil => rfl
  | cons s ss ih =>
    rw [listing_cons, ← ih, List.cons_append]
    cases h : ss ++ [last] with
    | nil => simp at h
    | cons x xs => simp [joinWith]

theorem replaced_listing {d : Char} {ds new : Str} (hd : d ≠ ' ') (hc : ',' ∉ d :: ds) {ss ss' : List Str} {last : Str}
    (h : List.Forall₂ (Replaced (d :: ds) new) ss ss') (hl : ¬ Occurs (d :: ds) last) :
    Replaced (d :: ds) new (listing ss last) (listing ss' last) := by
  induction h with
  | nil => exact .none hl
  | cons h _ ih =>
    rw [listing_cons, listing_cons]
    exact h.sep hc (ih.skip hd.symm)

/-- A phrase with its marks, those in `done` with their weights. -/
def marked (weight : Nat → Str) (done : List (Str × Nat)) (p : Str × Nat) : Str :=
  if p.2 = 0 then p.1
  else if p ∈ done then c!"(" ++ p.1 ++ c!":" ++ weight p.2 ++ c!")"
  else p.1 ++ List.replicate p.2 '!'

theorem Spec.Phrase.ne {p : Str} (h : Phrase isWord p) : p ≠ [] := by
  obtain ⟨c, hc, -⟩ := h.first
  rintro rfl
  cases hc

theorem Spec.Phrase.not_mem {p : Str} (h : Phrase isWord p) {c : Char} (h1 : isWord c = false)
    (h2 : isSpace c = false) : c ∉ p := by
  intro hc
  rcases (h.chars c hc).1 with h | h
  · rw [h1] at h; cases h
  · rw [h2] at h; cases h

theorem replace_mark {weight : Nat → Str} (hwt : ∀ n, '!' ∉ weight n) (hb : isWord '!' = false)
    (hcm : isWord ',' = false) (hsp : ∀ c, isSpace c = true → isWord c = false)
    {phrases : List (Str × Nat)} {last : Str} (hp : ∀ p ∈ phrases, Phrase isWord p.1)
    (hl : Phrase isWord last)
    (hclash : ∀ p ∈ phrases, ∀ q ∈ phrases, p.2 ≠ 0 → p.2 ≤ q.2 → p.1 <:+ q.1 → p = q)
    (done : List (Str × Nat)) (p : Str × Nat) (hpm : p ∈ phrases) (hn : p.2 ≠ 0) :
    replaceAll (listing (phrases.map (marked weight done)) last) (p.1 ++ List.replicate p.2 '!')
        (c!"(" ++ p.1 ++ c!":" ++ weight p.2 ++ c!")") =
      listing (phrases.map (marked weight (p :: done))) last := by
  have hph := hp p hpm
  obtain ⟨c, hc, hcw⟩ := hph.first
  have hbs : isSpace '!' = false := by decide
  have hcs : isSpace ',' = false := by decide
  obtain ⟨cs, hcs'⟩ : ∃ cs, p.1 = c :: cs := by
    cases h : p.1 with
    | nil => exact absurd h hph.ne
    | cons a cs => rw [h] at hc; cases hc; exact ⟨cs, rfl⟩
  have hpat : p.1 ++ List.replicate p.2 '!' = c :: (cs ++ List.replicate p.2 '!') := by rw [hcs']; rfl
  have hbp : '!' ∈ c :: (cs ++ List.replicate p.2 '!') := by
    obtain ⟨k, hk⟩ : ∃ k, p.2 = k + 1 := ⟨p.2 - 1, by omega⟩
    rw [hk]
    simp [List.replicate_succ]
  have hno : ∀ s : Str, '!' ∉ s → ¬ Occurs (c :: (cs ++ List.replicate p.2 '!')) s := by
    rintro s hs ⟨a, b, rfl⟩
    exact hs (List.mem_append.2 (.inl (List.mem_append.2 (.inr hbp))))
  rw [hpat]
  refine (replaceAll_replaced (by simp)).unique (replaced_listing ?_ ?_ ?_ ?_)
  · rintro rfl
    rw [hsp ' ' (by decide)] at hcw
    cases hcw
  · rw [← hpat]
    intro hm
    rcases List.mem_append.1 hm with hm | hm
    · exact hph.not_mem hcm hcs hm
    · exact absurd (List.eq_of_mem_replicate hm) (by decide)
  · rw [List.forall₂_map_left_iff, List.forall₂_map_right_iff, List.forall₂_same]
    intro q hq
    have hqb : '!' ∉ q.1 := (hp q hq).not_mem hb hbs
    unfold marked
    by_cases hq0 : q.2 = 0
    · rw [if_pos hq0, if_pos hq0]
      exact .none (hno _ hqb)
    · rw [if_neg hq0, if_neg hq0]
      by_cases hqp : q = p
      · subst hqp
        rw [if_pos (List.mem_cons_self ..)]
        split
        · refine .none (hno _ ?_)
          simp [hqb, hwt]
        · have := Replaced.one (pat := c :: (cs ++ List.replicate q.2 '!'))
            (new := c!"(" ++ q.1 ++ c!":" ++ weight q.2 ++ c!")") (a := []) (b := []) (b' := [])
            (fun _ _ _ => Nat.zero_le _) (.none (hno _ (by simp)))
          rw [hpat]
          simpa using this
      · have e : (q ∈ p :: done) ↔ q ∈ done := by simp [hqp]
        simp only [e]
        split
        · refine .none (hno _ ?_)
          simp [hqb, hwt]
        · refine .none ?_
          rw [← hpat]
          intro ho
          obtain ⟨h1, h2⟩ := marked_occurs hph.ne (hph.not_mem hb hbs) hqb hn ho
          exact hqp (hclash p hpm q hq hn h1 h2).symm
  · exact hno _ (hl.not_mem hb hbs)

theorem apply_marks {weight : Nat → Str} (hwt : ∀ n, '!' ∉ weight n) (hb : isWord '!' = false)
    (hcm : isWord ',' = false) (hsp : ∀ c, isSpace c = true → isWord c = false)
    {phrases : List (Str × Nat)} {last : Str} (hp : ∀ p ∈ phrases, Phrase isWord p.1)
    (hl : Phrase isWord last)
    (hclash : ∀ p ∈ phrases, ∀ q ∈ phrases, p.2 ≠ 0 → p.2 ≤ q.2 → p.1 <:+ q.1 → p = q)
    (ms done : List (Str × Nat)) (hms : ∀ p ∈ ms, p ∈ phrases ∧ p.2 ≠ 0) :
    applyBangs weight ms (listing (phrases.map (marked weight done)) last) =
      listing (phrases.map (marked weight (ms.reverse ++ done))) last := by
  induction ms generalizing done with
  | nil => rfl
  | cons p ms ih =>
    obtain ⟨q, n⟩ := p
    obtain ⟨h1, h2⟩ := hms (q, n) (by simp)
    simp only [applyBangs]
    rw [replace_mark hwt hb hcm hsp hp hl hclash done (q, n) h1 h2, ih _ fun p hp => hms p (by simp [hp])]
    simp

/-! ## Finding the marks -/

theorem findBangs_skip {n : Nat} {prev : Option Char} {q rest : Str} (hcm : isWord ',' = false)
    (hq : ∀ c ∈ q, isWord c = true ∨ isSpace c = true) :
    ∃ prev', findBangs isWord (n + q.length) prev (q ++ ',' :: rest) = findBangs isWord n prev' (',' :: rest) := by
  induction q generalizing prev with
  | nil => exact ⟨prev, rfl⟩
  | cons c q ih =>
    obtain ⟨prev', e⟩ := ih (prev := some c) fun d hd => hq d (by simp [hd])
    refine ⟨prev', ?_⟩
    rw [List.length_cons, ← Nat.add_assoc, List.cons_append]
    simp only [findBangs]
    have hk : runLen (fun c => isWord c || isSpace c || c == '-') (c :: (q ++ ',' :: rest)) = (c :: q).length := by
      rw [← List.cons_append]
      refine runLen_append ?_ ?_
      · intro d hd
        rcases hq d hd with h | h <;> simp [h]
      · intro d hd
        cases hd
        simp [hcm]
        decide
    have hj : runLen (· == '!') ((c :: (q ++ ',' :: rest)).drop (c :: q).length) = 0 := by
      rw [← List.cons_append, List.drop_left]
      rfl
    rw [hk, hj, if_neg (by simp), e]

theorem findBangs_comma {n : Nat} {prev : Option Char} {rest : Str} (hcm : isWord ',' = false)
    (hsp : ∀ c, isSpace c = true → isWord c = false) :
    findBangs isWord (n + 2) prev (',' :: ' ' :: rest) = findBangs isWord n (some ' ') rest := by
  have hk : runLen (fun c => isWord c || isSpace c || c == '-') (',' :: ' ' :: rest) = 0 := by
    have : isSpace ',' = false := by decide
    simp [runLen, hcm, this]
  have h1 : isWord ' ' = false := hsp ' ' (by decide)
  rw [show n + 2 = (n + 1) + 1 from rfl]
  simp only [findBangs, hk]
  rw [if_neg (by simp), if_neg (by simp [boundary, hcm, h1])]

theorem find_marks {phrases : List (Str × Nat)} {last : Str} (hb : isWord '!' = false)
    (hcm : isWord ',' = false) (hsp : ∀ c, isSpace c = true → isWord c = false)
    (hp : ∀ p ∈ phrases, Phrase isWord p.1) (hl : Phrase isWord last) (weight : Nat → Str)
    (prev : Option Char) (hprev : prev.any isWord = false) (n : Nat)
    (hn : (listing (phrases.map (marked weight [])) last).length ≤ n) :
    findBangs isWord n prev (listing (phrases.map (marked weight [])) last) = phrases.filter (·.2 ≠ 0) := by
  have hbs : isSpace '!' = false := by decide
  have hcs : isSpace ',' = false := by decide
  induction phrases generalizing prev n with
  | nil => exact findBangs_none (hl.not_mem hb hbs)
  | cons p phrases ih =>
    obtain ⟨q, m⟩ := p
    have hq := hp (q, m) (by simp)
    have ih := ih (fun p hp' => hp p (by simp [hp'])) (some ' ') (by simp [hsp ' ' (by decide)])
    rw [List.map_cons, listing_cons] at hn ⊢
    generalize hmore : listing (phrases.map (marked weight [])) last = more at ih hn ⊢
    by_cases hm : m = 0
    · subst hm
      have e : marked weight [] (q, 0) = q := by simp [marked]
      rw [e] at hn ⊢
      simp at hn
      obtain ⟨k, rfl⟩ : ∃ k, n = (k + 2) + q.length := ⟨n - 2 - q.length, by omega⟩
      obtain ⟨prev', e'⟩ := findBangs_skip (isWord := isWord) (n := k + 2) (prev := prev) (q := q)
        (rest := ' ' :: more) hcm (fun c hc => (hq.chars c hc).1)
      rw [e', findBangs_comma hcm hsp, ih k (by omega)]
      simp
    · have e : marked weight [] (q, m) = q ++ List.replicate m '!' := by simp [marked, hm]
      rw [e] at hn ⊢
      obtain ⟨c, hc, hw⟩ := hq.first
      obtain ⟨cs, rfl⟩ : ∃ cs, q = c :: cs := by
        cases q with
        | nil => cases hc
        | cons a cs => cases hc; exact ⟨cs, rfl⟩
      obtain ⟨j, rfl⟩ : ∃ j, m = j + 1 := ⟨m - 1, by omega⟩
      have hk : runLen (fun c => isWord c || isSpace c || c == '-')
          ((c :: cs) ++ List.replicate (j + 1) '!' ++ ',' :: ' ' :: more) = (c :: cs).length := by
        rw [List.append_assoc]
        refine runLen_append ?_ ?_
        · intro d hd
          rcases (hq.chars d hd).1 with h | h <;> simp [h]
        · intro d hd
          simp [List.replicate_succ] at hd
          subst hd
          simp [hb]
          decide
      have hj : runLen (· == '!') (((c :: cs) ++ List.replicate (j + 1) '!' ++ ',' :: ' ' :: more).drop
          (c :: cs).length) = j + 1 := by
        rw [List.append_assoc, List.drop_left, runLen_append (a := List.replicate (j + 1) '!')]
        · simp
        · intro d hd
          simp [List.eq_of_mem_replicate hd]
        · intro d hd
          cases hd
          decide
      simp at hn
      obtain ⟨k, rfl⟩ : ∃ k, n = (k + 2) + 1 := ⟨n - 3, by omega⟩
      have hd : ((c :: cs) ++ List.replicate (j + 1) '!' ++ ',' :: ' ' :: more).drop ((c :: cs).length + (j + 1)) =
          ',' :: ' ' :: more := by
        rw [← List.drop_drop, List.append_assoc, List.drop_left, List.drop_left' (by simp)]
      have ht : ((c :: cs) ++ List.replicate (j + 1) '!' ++ ',' :: ' ' :: more).take (c :: cs).length = c :: cs := by
        rw [List.append_assoc, List.take_left]
      rw [List.cons_append, List.cons_append] at hk hj hd ht ⊢
      simp only [findBangs]
      rw [hk, hj, if_pos (by simp [boundary, hw, hprev]), hd, ht, findBangs_comma hcm hsp, ih k (by omega)]
      simp

/-! ## The other rules -/

/-- A rule that replaces every match by itself changes nothing. -/
theorem subN_fixed {m : Option Char → Str → Option (Nat × Str)} {n : Nat} {prev : Option Char} {s : Str}
    (h : ∀ prev t, t <:+ s → ∀ k r, m prev t = some (k, r) → r = t.take k) : subN m n prev s = s := by
  induction n generalizing prev s with
  | zero => rfl
  | succ n ih =>
    cases s with
    | nil => rfl
    | cons c cs =>
      simp only [subN]
      split
      · rename_i k r hm
        rw [h _ _ List.suffix_rfl _ _ hm, ih fun prev t ht => h prev t (ht.trans (List.drop_suffix _ _)),
          List.take_append_drop]
      · rw [ih fun prev t ht => h prev t (ht.trans (List.suffix_cons _ _))]

theorem mem_takeWhile_holds {p : Char → Bool} {s : Str} {c : Char} (h : c ∈ s.takeWhile p) : p c = true := by
  induction s with
  | nil => cases h
  | cons a s ih =>
    rw [List.takeWhile_cons] at h
    split at h
    · rcases List.mem_cons.1 h with rfl | h
      · assumption
      · exact ih h
    · cases h

/-- Commas come as `, ` after and before something that is not white space. -/
def TidyCommas (s : Str) : Prop :=
  ∀ x y, s = x ++ ',' :: y → (∀ c, x.getLast? = some c → isSpace c = false) ∧
    ∃ d z, y = ' ' :: d :: z ∧ isSpace d = false ∧ d ≠ ','

theorem TidyCommas.suffix {s t : Str} (h : TidyCommas s) (ht : t <:+ s) : TidyCommas t := by
  obtain ⟨w, rfl⟩ := ht
  intro x y e
  obtain ⟨h1, h2⟩ := h (w ++ x) y (by rw [e]; simp)
  refine ⟨fun c hc => h1 c ?_, h2⟩
  rw [List.getLast?_append, hc]
  rfl

theorem tidied_commas {s : Str} (h : ∀ c ∈ s, c ∉ c!"()-;._") (hs : TidyCommas s) : tidied isWord s = s := by
  have ne : ∀ {t : Str} {a : Char}, (∀ c ∈ t, c ∈ s) → a ∈ c!"()-;._" → a ∉ t :=
    fun ht ha hm => h _ (ht _ hm) ha
  unfold tidied reSub
  have h1 : reSub mOpen s = s := subN_id fun prev t ht => by
    unfold mOpen
    split
    · exact absurd (by simp) (ne (a := '(') ht (by decide))
    · rfl
  have h2 : reSub mClose s = s := subN_id fun prev t ht => by
    unfold mClose
    dsimp only
    split
    · rfl
    · rw [if_neg]
      intro hh
      exact ne (a := ')') ht (by decide) (head_drop_mem hh)
  have h3 : reSub (mHyphen isWord) s = s := subN_id fun prev t ht => by
    unfold mHyphen
    dsimp only
    split
    · rfl
    · split
      · rename_i u hd
        exact absurd (List.mem_of_mem_drop (by rw [hd]; simp)) (ne (a := '-') ht (by decide))
      · rfl
  have h4 : reSub mComma s = s := subN_fixed fun prev t ht k r hm => by
    have htm : ∀ c ∈ t, c ∈ s := fun c hc => ht.subset hc
    unfold mComma at hm
    dsimp only at hm
    split at hm
    · cases hm
    · rename_i hj
      obtain ⟨c, hc, hsep⟩ := runLen_head hj
      have hcm : c = ',' := by
        have hc := head_drop_mem hc
        have e2 : c ≠ ';' := fun e => ne (a := ';') htm (by decide) (e ▸ hc)
        have e3 : c ≠ '.' := fun e => ne (a := '.') htm (by decide) (e ▸ hc)
        simpa [isListSep, e2, e3] using hsep
      subst hcm
      obtain ⟨y, hy⟩ : ∃ y, t.drop (runLen isSpace t) = ',' :: y := by
        cases hd : t.drop (runLen isSpace t) with
        | nil => rw [hd] at hc; cases hc
        | cons a y => rw [hd] at hc; cases hc; exact ⟨y, rfl⟩
      obtain ⟨h5, d, z, rfl, hd1, hd2⟩ := hs.suffix ht (t.takeWhile isSpace) y (by
        rw [← take_runLen, ← hy, List.take_append_drop])
      have hk : runLen isSpace t = 0 := by
        unfold runLen
        rcases List.eq_nil_or_concat (t.takeWhile isSpace) with e | ⟨a, b, e⟩
        · rw [e]; rfl
        · have hb : isSpace b = true := by
            have : b ∈ t.takeWhile isSpace := by rw [e]; simp
            exact mem_takeWhile_holds this
          have := h5 b (by rw [e]; simp)
          rw [hb] at this
          cases this
      rw [hk] at hy hm
      simp only [List.drop_zero] at hy hm
      subst hy
      have e1 : runLen isListSep (',' :: ' ' :: d :: z) = 1 := by
        simp [runLen, isListSep]
      have e2 : runLen isSpace (' ' :: d :: z) = 1 := by
        have : isSpace ' ' = true := by decide
        simp [runLen, this, hd1]
      rw [e1] at hm
      simp only [List.drop_succ_cons, List.drop_zero, e2] at hm
      split at hm
      · cases hm
        rfl
      · cases hm
  have h5 : reSub mUnderscore s = s := subN_id fun prev t ht => by
    unfold mUnderscore
    dsimp only
    rw [if_pos]
    have : runLen (· == '_') (t.drop (runLen isSpace t)) = 0 := by
      refine runLen_zero fun c hc => ?_
      have hc := List.mem_of_mem_drop hc
      have e1 : c ≠ '_' := fun e => ne (a := '_') ht (by decide) (e ▸ hc)
      simp [e1]
    simp [this]
  have h6 : reSub (mEmpty isWord) s = s := subN_fixed fun prev t ht k r hm => by
    unfold mEmpty at hm
    split at hm
    · rename_i t'
      split at hm
      · cases hm
      · obtain ⟨-, d, z, rfl, hd1, hd2⟩ := hs.suffix ht [] t' rfl
        have e2 : runLen isSpace (' ' :: d :: z) = 1 := by
          have : isSpace ' ' = true := by decide
          simp [runLen, this, hd1]
        dsimp only at hm
        rw [e2] at hm
        simp only [List.drop_succ_cons, List.drop_zero] at hm
        split at hm
        · rename_i hd
          cases hd
          exact absurd rfl hd2
        · cases hm
    · cases hm
  unfold reSub at h1 h2 h3 h4 h5 h6
  rw [h1, h2, h3, h4, h5, h6]

theorem tidyCommas_cons {a b : Str} (ha : ',' ∉ a) (hlast : ∀ c, a.getLast? = some c → isSpace c = false)
    (hb : ∃ d z, b = d :: z ∧ isSpace d = false ∧ d ≠ ',') (h : TidyCommas b) :
    TidyCommas (a ++ ',' :: ' ' :: b) := by
  intro x y e
  rcases List.append_eq_append_iff.1 e with ⟨a', h1, h2⟩ | ⟨c', h1, h2⟩
  · cases a' with
    | nil =>
      simp at h1 h2
      subst h1
      obtain ⟨d, z, rfl, h3, h4⟩ := hb
      exact ⟨hlast, d, z, h2.symm, h3, h4⟩
    | cons u a' =>
      simp at h2
      obtain ⟨rfl, h2⟩ := h2
      obtain ⟨d, z, rfl, h3, h4⟩ := hb
      cases a' with
      | nil => simp at h2
      | cons v a' =>
        simp at h2
        obtain ⟨rfl, h2⟩ := h2
        obtain ⟨h5, h6⟩ := h a' y h2
        refine ⟨fun c hc => h5 c ?_, h6⟩
        cases a' with
        | nil => simp at h2; exact absurd h2.1 h4
        | cons v' a' =>
          rw [h1] at hc
          simpa [List.getLast?_append] using hc
  · cases c' with
    | nil =>
      simp at h1 h2
      subst h1
      obtain ⟨d, z, rfl, h3, h4⟩ := hb
      exact ⟨hlast, d, z, h2, h3, h4⟩
    | cons u c' =>
      simp at h2
      exact absurd (by rw [h1, ← h2.1]; simp) ha

theorem listing_head {phrases : List (Str × Nat)} {last : Str} (hp : ∀ p ∈ phrases, Phrase isWord p.1)
    (hl : Phrase isWord last) (weight : Nat → Str) :
    ∃ d z, listing (phrases.map (marked weight [])) last = d :: z ∧ isWord d = true := by
  cases phrases with
  | nil =>
    obtain ⟨c, hc, hw⟩ := hl.first
    cases last with
    | nil => cases hc
    | cons a z => cases hc; exact ⟨_, _, rfl, hw⟩
  | cons p phrases =>
    obtain ⟨c, hc, hw⟩ := (hp p (by simp)).first
    rw [List.map_cons, listing_cons]
    unfold marked
    cases h : p.1 with
    | nil => rw [h] at hc; cases hc
    | cons a z =>
      rw [h] at hc
      cases hc
      split
      · exact ⟨_, _, rfl, hw⟩
      · exact ⟨_, _, rfl, hw⟩

theorem tidyCommas_listing {phrases : List (Str × Nat)} {last : Str} (hcm : isWord ',' = false)
    (hsp : ∀ c, isSpace c = true → isWord c = false)
    (hp : ∀ p ∈ phrases, Phrase isWord p.1)
    (hl : Phrase isWord last) (weight : Nat → Str) :
    TidyCommas (listing (phrases.map (marked weight [])) last) := by
  have hcs : isSpace ',' = false := by decide
  have hns : ∀ c, isWord c = true → isSpace c = false := by
    intro c hc
    cases h : isSpace c with
    | false => rfl
    | true => rw [hsp c h] at hc; cases hc
  induction phrases with
  | nil =>
    intro x y e
    exact absurd (by rw [show last = x ++ ',' :: y from e]; simp) (hl.not_mem hcm hcs)
  | cons p phrases ih =>
    have hq := hp p (by simp)
    rw [List.map_cons, listing_cons]
    have hp' : ∀ p ∈ phrases, Phrase isWord p.1 := fun p h => hp p (by simp [h])
    refine tidyCommas_cons ?_ ?_ ?_ (ih hp')
    · unfold marked
      split
      · exact hq.not_mem hcm hcs
      · rw [if_neg (by simp)]
        intro hm
        rcases List.mem_append.1 hm with hm | hm
        · exact hq.not_mem hcm hcs hm
        · exact absurd (List.eq_of_mem_replicate hm) (by decide)
    · intro c hc
      unfold marked at hc
      split at hc
      · obtain ⟨d, hd, hw⟩ := hq.final
        rw [hd] at hc
        cases hc
        exact hns _ hw
      · rename_i h0
        rw [if_neg (by simp)] at hc
        obtain ⟨k, hk⟩ : ∃ k, p.2 = k + 1 := ⟨p.2 - 1, by omega⟩
        rw [hk, List.replicate_succ', ← List.append_assoc, List.getLast?_concat] at hc
        cases hc
        decide
    · obtain ⟨d, z, e, hw⟩ := listing_head hp' hl weight
      exact ⟨d, z, e, hns d hw, by rintro rfl; rw [hcm] at hw; cases hw⟩

end Verif
