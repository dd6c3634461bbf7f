import Verif.Proofs.MagicRules
import Verif.Props.Magic
/-!
# C44, the rules one by one

What each rule of the clean-up does at one place in the added part, whatever stands before and after it: the
text is cleaned up as if the rule's replacement stood there in the first place.
-/

namespace Verif.Props
open Verif Verif.Spec
variable {isWord : Char → Bool}

/-- The two strippings of the clean-up. -/
def stripWords (isWord : Char → Bool) (s : Str) : Str := stripP (fun c => !isWord c) (strip s)

/-- A text with a word character, from its first to its last one. -/
theorem word_core {s : Str} (h : ∃ c ∈ s, isWord c = true) :
    ∃ pre core post, s = pre ++ core ++ post ∧ core ≠ [] ∧ (∀ c ∈ pre, isWord c = false) ∧
      (∀ c ∈ post, isWord c = false) ∧ (∀ c, core.head? = some c → isWord c = true) ∧
      ∀ c, core.getLast? = some c → isWord c = true := by
  have first : ∀ s : Str, (∃ c ∈ s, isWord c = true) → ∃ pre d rest, s = pre ++ d :: rest ∧ isWord d = true ∧
      ∀ c ∈ pre, isWord c = false := by
    intro s
    induction s with
    | nil => simp
    | cons x s ih =>
      intro h
      by_cases hx : isWord x = true
      · exact ⟨[], x, s, rfl, hx, by simp⟩
      · obtain ⟨pre, d, rest, rfl, h1, h2⟩ := ih (by
          obtain ⟨c, hc, hw⟩ := h
          rcases List.mem_cons.1 hc with rfl | hc
          · exact absurd hw hx
          · exact ⟨c, hc, hw⟩)
        refine ⟨x :: pre, d, rest, rfl, h1, fun c hc => ?_⟩
        rcases List.mem_cons.1 hc with rfl | hc
        · simpa using hx
        · exact h2 c hc
  obtain ⟨pre, d, rest, rfl, h1, h2⟩ := first s h
  obtain ⟨post, e, back, h3, h4, h5⟩ := first (d :: rest).reverse ⟨d, by simp, h1⟩
  have h6 : d :: rest = (back.reverse ++ [e]) ++ post.reverse := by
    rw [← List.reverse_reverse (d :: rest), h3]
    simp
  refine ⟨pre, back.reverse ++ [e], post.reverse, by rw [h6]; simp, by simp, h2,
    fun c hc => h5 c (List.mem_reverse.1 hc), fun c hc => ?_, fun c hc => ?_⟩
  · have : (d :: rest).head? = some c := by
      rw [h6, List.head?_append, hc]
      rfl
    cases this
    exact h1
  · simp at hc
    rw [← hc]
    exact h4

theorem strip_none {s : Str} (h : ∀ c ∈ s, isWord c = false) :
    stripWords isWord s = [] := by
  unfold stripWords
  have : ∀ c ∈ strip s, isWord c = false := all_stripP h
  unfold stripP lstripP
  rw [dropWhile_nil fun c hc => by simp [this c hc]]
  rfl

/-- Between two texts with word characters everything stays. -/
theorem strip_between (hsp : ∀ c, isSpace c = true → isWord c = false) {a b : Str} (ha : ∃ c ∈ a, isWord c = true)
    (hb : ∃ c ∈ b, isWord c = true) :
    ∃ a' b', a'.getLast? = a.getLast? ∧ b'.head? = b.head? ∧ ∀ x, stripWords isWord (a ++ x ++ b) = a' ++ x ++ b' := by
  obtain ⟨p, c, q, rfl, hc, h1, h2, h3, h4⟩ := word_core ha
  obtain ⟨p', c', q', rfl, hc', h1', h2', h3', h4'⟩ := word_core hb
  refine ⟨c ++ q, p' ++ c', ?_, ?_, fun x => ?_⟩
  · rw [List.append_assoc, List.getLast?_append (l := p)]
    cases h : (c ++ q).getLast? with
    | none => simp [hc] at h
    | some _ => rfl
  · rw [List.head?_append (l := p' ++ c')]
    cases h : (p' ++ c').head? with
    | none => simp [hc'] at h
    | some _ => rfl
  · have := strip_core (isWord := isWord) (pre := p) (core := c ++ q ++ x ++ (p' ++ c')) (post := q') (by simp [hc]) hsp
      (fun d hd => h3 d (by
        cases c with
        | nil => exact absurd rfl hc
        | cons e c => simpa using hd))
      (fun d hd => h4' d (by
        rw [List.getLast?_append, List.getLast?_append] at hd
        cases h : c'.getLast? with
        | none => simp [hc'] at h
        | some _ => rw [h] at hd; exact hd)) h1 h2'
    rw [← this]
    unfold stripWords
    simp only [List.append_assoc]

/-- What stands between two texts of which one has no word character goes, if it has none itself. -/
theorem strip_beside (hsp : ∀ c, isSpace c = true → isWord c = false) {a b : Str}
    (h : (∀ c ∈ a, isWord c = false) ∨ ∀ c ∈ b, isWord c = false) :
    ∃ t, ∀ x, (∀ c ∈ x, isWord c = false) → stripWords isWord (a ++ x ++ b) = t := by
  by_cases ha : ∃ c ∈ a, isWord c = true
  · obtain ⟨p, c, q, rfl, hc, h1, h2, h3, h4⟩ := word_core ha
    have hb : ∀ c ∈ b, isWord c = false := by
      rcases h with h | h
      · obtain ⟨d, hd, hw⟩ := ha
        rw [h d hd] at hw
        cases hw
      · exact h
    refine ⟨c, fun x hx => ?_⟩
    refine Eq.trans ?_ (strip_core (isWord := isWord) (pre := p) (core := c) (post := q ++ x ++ b) hc hsp h3 h4 h1 ?_)
    · unfold stripWords
      simp only [List.append_assoc]
    · intro d hd
      simp only [List.mem_append] at hd
      rcases hd with (hd | hd) | hd
      · exact h2 d hd
      · exact hx d hd
      · exact hb d hd
  · have ha' : ∀ c ∈ a, isWord c = false := fun c hc => by
      cases hw : isWord c with
      | false => rfl
      | true => exact absurd ⟨c, hc, hw⟩ ha
    by_cases hb : ∃ c ∈ b, isWord c = true
    · obtain ⟨p, c, q, rfl, hc, h1, h2, h3, h4⟩ := word_core hb
      refine ⟨c, fun x hx => ?_⟩
      refine Eq.trans ?_ (strip_core (isWord := isWord) (pre := a ++ x ++ p) (core := c) (post := q) hc hsp h3 h4 ?_ h2)
      · unfold stripWords
        simp only [List.append_assoc]
      · intro d hd
        simp only [List.mem_append] at hd
        rcases hd with (hd | hd) | hd
        · exact ha' d hd
        · exact hx d hd
        · exact h1 d hd
    · refine ⟨[], fun x hx => strip_none ?_⟩
      intro d hd
      simp only [List.mem_append] at hd
      rcases hd with (hd | hd) | hd
      · exact ha' d hd
      · exact hx d hd
      · cases hw : isWord d with
        | false => rfl
        | true => exact absurd ⟨d, hd, hw⟩ hb

theorem clean_of_tidied (weight : Nat → Str) (orig s t : Str)
    (h : tidied isWord (stripWords isWord (s.map deBrace)) = tidied isWord (stripWords isWord (t.map deBrace))) :
    cleanMagic isWord weight orig (orig ++ s) = cleanMagic isWord weight orig (orig ++ t) := by
  have hs : ∀ x, startsWith (orig ++ x) orig = true := fun x => by
    unfold startsWith
    rw [List.isPrefixOf_iff_prefix]
    exact List.prefix_append _ _
  unfold cleanMagic
  rw [if_pos (hs s), if_pos (hs t), List.drop_left, List.drop_left, cleanAdded_eq, cleanAdded_eq]
  unfold stripWords at h
  dsimp only
  rw [h]

theorem deBrace_other {c : Char} (h : c ≠ '{' ∧ c ≠ '}') : deBrace c = c := by
  unfold deBrace
  rw [if_neg h.1, if_neg h.2]

theorem deBrace_spaces {s : Str} (h : ∀ c ∈ s, isSpace c = true ∨ c ∈ c!",;.-_") : s.map deBrace = s := by
  conv => rhs; rw [← List.map_id s]
  refine List.map_congr_left fun c hc => deBrace_other ?_
  rcases h c hc with h | h
  · constructor <;> rintro rfl <;> exact absurd h (by decide)
  · constructor <;> rintro rfl <;> exact absurd h (by decide)

/-- **C44** Separators.  One or more of `,` `;` `.` with white space around them, before an ASCII letter or an
opening parenthesis or brace, count as a comma and a space, whatever the texts before and after them are (the
one before ends with none of white space `(` `{` `-` `,` `;` `.`). -/
theorem magic_separators (isWord : Char → Bool) (weight : Nat → Str)
    (hsp : ∀ c, isSpace c = true → isWord c = false) (hsw : ∀ c ∈ c!",;.", isWord c = false)
    (orig a sp seps sp' b : Str) (l h : Char)
    (hl : a.getLast? = some l) (hl1 : isSpace l = false) (hl2 : l ∉ c!"({-,;.")
    (h1 : ∀ c ∈ sp, isSpace c = true) (h2 : seps ≠ []) (h3 : ∀ c ∈ seps, c ∈ c!",;.")
    (h4 : ∀ c ∈ sp', isSpace c = true)
    (hh : b.head? = some h) (hh1 : ('a' ≤ h ∧ h ≤ 'z') ∨ ('A' ≤ h ∧ h ≤ 'Z') ∨ h = '(' ∨ h = '{') :
    cleanMagic isWord weight orig (orig ++ (a ++ (sp ++ seps ++ sp') ++ b)) =
      cleanMagic isWord weight orig (orig ++ (a ++ c!", " ++ b)) := by
  have hsep : ∀ c, c ∈ c!",;." ↔ isListSep c = true := by
    intro c
    simp [isListSep, or_assoc]
  refine clean_of_tidied weight orig _ _ ?_
  have hx : ∀ c ∈ sp ++ seps ++ sp', isSpace c = true ∨ c ∈ c!",;." := by
    intro c hc
    simp only [List.mem_append] at hc
    rcases hc with (hc | hc) | hc
    · exact .inl (h1 c hc)
    · exact .inr (h3 c hc)
    · exact .inl (h4 c hc)
  have hword : ∀ c, isSpace c = true ∨ c ∈ c!",;." → isWord c = false := by
    rintro c (h | h)
    · exact hsp c h
    · exact hsw c h
  simp only [List.map_append]
  rw [← List.map_append, ← List.map_append, deBrace_spaces fun c hc => (hx c hc).imp_right (by
    intro h; simp only [List.mem_cons, List.not_mem_nil, or_false] at h ⊢; tauto),
    show (c!", ").map deBrace = c!", " from by decide]
  by_cases hab : (∃ c ∈ a.map deBrace, isWord c = true) ∧ ∃ c ∈ b.map deBrace, isWord c = true
  · obtain ⟨a', b', ea, eb, e⟩ := strip_between hsp hab.1 hab.2
    rw [e, e]
    rw [List.getLast?_map, hl] at ea
    rw [List.head?_map, hh] at eb
    have hl0 : l ≠ '(' ∧ l ≠ '{' ∧ l ≠ '-' ∧ isListSep l = false := by
      simp only [List.mem_cons, List.not_mem_nil, or_false, not_or] at hl2
      refine ⟨hl2.1, hl2.2.1, hl2.2.2.1, ?_⟩
      simp [isListSep, hl2.2.2.2.1, hl2.2.2.2.2.1, hl2.2.2.2.2.2]
    have hl' : isSpace (deBrace l) = false ∧ deBrace l ≠ '(' ∧ deBrace l ≠ '-' ∧ isListSep (deBrace l) = false := by
      unfold deBrace
      rw [if_neg hl0.2.1]
      split
      · decide
      · exact ⟨hl1, hl0.1, hl0.2.2.1, hl0.2.2.2⟩
    have hh' : isSpace (deBrace h) = false ∧ deBrace h ≠ ')' ∧ deBrace h ≠ '-' ∧ isListSep (deBrace h) = false ∧
        isPhraseStart (deBrace h) = true := by
      have brace : ∀ d : Char, d = '(' → isSpace d = false ∧ d ≠ ')' ∧ d ≠ '-' ∧ isListSep d = false ∧
          isPhraseStart d = true := by rintro d rfl; decide
      have letter : ('a' ≤ h ∧ h ≤ 'z') ∨ ('A' ≤ h ∧ h ≤ 'Z') → isSpace (deBrace h) = false ∧ deBrace h ≠ ')' ∧
          deBrace h ≠ '-' ∧ isListSep (deBrace h) = false ∧ isPhraseStart (deBrace h) = true := by
        intro hr
        have hn : (97 ≤ h.toNat ∧ h.toNat ≤ 122) ∨ (65 ≤ h.toNat ∧ h.toNat ≤ 90) := hr
        have ne : ∀ d : Char, ¬ ((97 ≤ d.toNat ∧ d.toNat ≤ 122) ∨ (65 ≤ d.toNat ∧ d.toNat ≤ 90)) → h ≠ d := by
          rintro d hd rfl; exact hd hn
        rw [deBrace_other ⟨ne _ (by decide), ne _ (by decide)⟩]
        refine ⟨?_, ne _ (by decide), ne _ (by decide), ?_, ?_⟩
        · simp only [isSpace, Bool.or_eq_false_iff, Bool.and_eq_false_iff, decide_eq_false_iff_not,
            beq_eq_false_iff_ne]
          omega
        · have e1 := ne ',' (by decide)
          have e2 := ne ';' (by decide)
          have e3 := ne '.' (by decide)
          simp [isListSep, e1, e2, e3]
        · have : ('a'.toNat ≤ h.toNat ∧ h.toNat ≤ 'z'.toNat) ∨ ('A'.toNat ≤ h.toNat ∧ h.toNat ≤ 'Z'.toNat) := hn
          simp only [isPhraseStart, Bool.or_eq_true, Bool.and_eq_true, decide_eq_true_eq]
          exact .inl this
      rcases hh1 with h | h | rfl | rfl
      · exact letter (.inl h)
      · exact letter (.inr h)
      · exact brace _ (by decide)
      · exact brace _ (by decide)
    exact tidied_separators ea hl'.1 hl'.2.1 hl'.2.2.1 hl'.2.2.2 h1 h2 (fun c hc => (hsep c).1 (h3 c hc)) h4 eb hh'.1
      hh'.2.1 hh'.2.2.1 hh'.2.2.2.1 hh'.2.2.2.2
  · have : (∀ c ∈ a.map deBrace, isWord c = false) ∨ ∀ c ∈ b.map deBrace, isWord c = false := by
      by_cases ha : ∃ c ∈ a.map deBrace, isWord c = true
      · refine .inr fun c hc => ?_
        cases hw : isWord c with
        | false => rfl
        | true => exact absurd ⟨ha, c, hc, hw⟩ hab
      · refine .inl fun c hc => ?_
        cases hw : isWord c with
        | false => rfl
        | true => exact absurd ⟨c, hc, hw⟩ ha
    obtain ⟨t, ht⟩ := strip_beside hsp this
    rw [ht _ (fun c hc => hword c (hx c hc)), ht _ (fun c hc => hword c (by
      simp at hc; rcases hc with rfl | rfl
      · exact .inr (by decide)
      · exact .inl (by decide)))]

/-- Between texts that end and begin with a word character a rule may look at the texts alone. -/
theorem clean_between (weight : Nat → Str) (hsp : ∀ c, isSpace c = true → isWord c = false)
    (hbr : ∀ c ∈ c!"{}", isWord c = false) (orig a x y b : Str) (l h : Char)
    (hl : a.getLast? = some l) (hlw : isWord l = true) (hh : b.head? = some h) (hhw : isWord h = true)
    (hx : ∀ c ∈ x, isSpace c = true ∨ c ∈ c!",;.-_") (hy : ∀ c ∈ y, isSpace c = true ∨ c ∈ c!",;.-_")
    (key : ∀ a b : Str, a.getLast? = some l → b.head? = some h → tidied isWord (a ++ x ++ b) = tidied isWord (a ++ y ++ b)) :
    cleanMagic isWord weight orig (orig ++ (a ++ x ++ b)) = cleanMagic isWord weight orig (orig ++ (a ++ y ++ b)) := by
  have db : ∀ c, isWord c = true → deBrace c = c := by
    intro c hc
    refine deBrace_other ⟨?_, ?_⟩ <;> rintro rfl <;> rw [hbr _ (by decide)] at hc <;> cases hc
  refine clean_of_tidied weight orig _ _ ?_
  simp only [List.map_append, deBrace_spaces hx, deBrace_spaces hy]
  have ea : (a.map deBrace).getLast? = some l := by rw [List.getLast?_map, hl, Option.map_some, db l hlw]
  have eb : (b.map deBrace).head? = some h := by rw [List.head?_map, hh, Option.map_some, db h hhw]
  obtain ⟨a', b', e1, e2, e⟩ := strip_between hsp ⟨l, List.mem_of_getLast? ea, hlw⟩ ⟨h, List.mem_of_head? eb, hhw⟩
  rw [e, e]
  exact key _ _ (e1.trans ea) (e2.trans eb)

/-- **C44** Hyphens.  White space around a hyphen between two word characters goes. -/
theorem magic_hyphens (isWord : Char → Bool) (weight : Nat → Str)
    (hsp : ∀ c, isSpace c = true → isWord c = false) (hbr : ∀ c ∈ c!"(){}-", isWord c = false)
    (orig a sp sp' b : Str) (l h : Char)
    (hl : a.getLast? = some l) (hlw : isWord l = true)
    (h1 : ∀ c ∈ sp, isSpace c = true) (h2 : sp ≠ []) (h3 : ∀ c ∈ sp', isSpace c = true) (h4 : sp' ≠ [])
    (hh : b.head? = some h) (hhw : isWord h = true) :
    cleanMagic isWord weight orig (orig ++ (a ++ (sp ++ c!"-" ++ sp') ++ b)) =
      cleanMagic isWord weight orig (orig ++ (a ++ c!"-" ++ b)) := by
  have ne : ∀ c, isWord c = true → ∀ d ∈ c!"(){}-", c ≠ d := by
    rintro c hc d hd rfl
    rw [hbr _ hd] at hc
    cases hc
  refine clean_between weight hsp (fun c hc => hbr c ?_) orig a _ _ b l h hl hlw hh hhw ?_ ?_ fun a b hl hh =>
    tidied_hyphen hsp hl hlw (ne l hlw _ (by decide)) (ne l hlw _ (by decide)) h1 h2 h3 h4 hh hhw
      (ne h hhw _ (by decide))
  · revert hc
    revert c
    decide
  · intro c hc
    simp only [List.mem_append, List.mem_singleton] at hc
    rcases hc with (hc | hc) | hc
    · exact .inl (h1 c hc)
    · exact .inr (by rw [hc]; decide)
    · exact .inl (h3 c hc)
  · intro c hc
    exact .inr (by rw [List.mem_singleton.1 hc]; decide)

/-- **C44** Underscores.  Underscores with white space around them count as a space, between word characters
other than underscores. -/
theorem magic_underscores (isWord : Char → Bool) (weight : Nat → Str)
    (hsp : ∀ c, isSpace c = true → isWord c = false) (hbr : ∀ c ∈ c!"(){}-,;.", isWord c = false)
    (orig a sp us sp' b : Str) (l h : Char)
    (hl : a.getLast? = some l) (hlw : isWord l = true) (hlu : l ≠ '_')
    (h1 : ∀ c ∈ sp, isSpace c = true) (h2 : sp ≠ []) (hu : ∀ c ∈ us, c = '_') (hu' : us ≠ [])
    (h3 : ∀ c ∈ sp', isSpace c = true) (h4 : sp' ≠ [])
    (hh : b.head? = some h) (hhw : isWord h = true) (hhu : h ≠ '_') :
    cleanMagic isWord weight orig (orig ++ (a ++ (sp ++ us ++ sp') ++ b)) =
      cleanMagic isWord weight orig (orig ++ (a ++ c!" " ++ b)) := by
  have ne : ∀ c, isWord c = true → ∀ d ∈ c!"(){}-,;.", c ≠ d := by
    rintro c hc d hd rfl
    rw [hbr _ hd] at hc
    cases hc
  have nosep : ∀ c, isWord c = true → isListSep c = false := by
    intro c hc
    have e1 := ne c hc ',' (by decide)
    have e2 := ne c hc ';' (by decide)
    have e3 := ne c hc '.' (by decide)
    simp [isListSep, e1, e2, e3]
  have nosp : ∀ c, isWord c = true → isSpace c = false := by
    intro c hc
    cases h : isSpace c with
    | false => rfl
    | true => rw [hsp c h] at hc; cases hc
  refine clean_between weight hsp (fun c hc => hbr c ?_) orig a _ _ b l h hl hlw hh hhw ?_ ?_ fun a b hl hh =>
    tidied_underscores hl (nosp l hlw) (ne l hlw _ (by decide)) (ne l hlw _ (by decide)) (nosep l hlw) hlu h1 h2 hu hu'
      h3 h4 hh (nosp h hhw) (ne h hhw _ (by decide)) (ne h hhw _ (by decide)) (nosep h hhw) hhu
  · revert hc
    revert c
    decide
  · intro c hc
    simp only [List.mem_append] at hc
    rcases hc with (hc | hc) | hc
    · exact .inl (h1 c hc)
    · exact .inr (by rw [hu c hc]; decide)
    · exact .inl (h3 c hc)
  · intro c hc
    exact .inl (by rw [List.mem_singleton.1 hc]; decide)

/-- **C44** Empty phrases.  Two commas with only white space between and after them count as one comma and a
space, between word characters other than underscores. -/
theorem magic_empty_phrases (isWord : Char → Bool) (weight : Nat → Str)
    (hsp : ∀ c, isSpace c = true → isWord c = false) (hbr : ∀ c ∈ c!"(){}-,;.", isWord c = false)
    (orig a sp sp' b : Str) (l h : Char)
    (hl : a.getLast? = some l) (hlw : isWord l = true) (hlu : l ≠ '_')
    (h1 : ∀ c ∈ sp, isSpace c = true) (h3 : ∀ c ∈ sp', isSpace c = true)
    (hh : b.head? = some h) (hhw : isWord h = true) (hhu : h ≠ '_') :
    cleanMagic isWord weight orig (orig ++ (a ++ (c!"," ++ sp ++ c!"," ++ sp') ++ b)) =
      cleanMagic isWord weight orig (orig ++ (a ++ c!", " ++ b)) := by
  have ne : ∀ c, isWord c = true → ∀ d ∈ c!"(){}-,;.", c ≠ d := by
    rintro c hc d hd rfl
    rw [hbr _ hd] at hc
    cases hc
  have nosep : ∀ c, isWord c = true → isListSep c = false := by
    intro c hc
    have e1 := ne c hc ',' (by decide)
    have e2 := ne c hc ';' (by decide)
    have e3 := ne c hc '.' (by decide)
    simp [isListSep, e1, e2, e3]
  refine clean_between weight hsp (fun c hc => hbr c ?_) orig a _ _ b l h hl hlw hh hhw ?_ ?_ fun a b hl hh =>
    tidied_empty hsp (hbr ',' (by decide)) hl hlw (ne l hlw _ (by decide)) (ne l hlw _ (by decide)) (nosep l hlw) hlu h1
      h3 hh hhw (ne h hhw _ (by decide)) (ne h hhw _ (by decide)) (nosep h hhw) hhu
  · revert hc
    revert c
    decide
  · intro c hc
    simp only [List.mem_append, List.mem_singleton] at hc
    rcases hc with ((hc | hc) | hc) | hc
    · exact .inr (by rw [hc]; decide)
    · exact .inl (h1 c hc)
    · exact .inr (by rw [hc]; decide)
    · exact .inl (h3 c hc)
  · intro c hc
    simp only [List.mem_cons, List.not_mem_nil, or_false] at hc
    rcases hc with rfl | rfl
    · exact .inr (by decide)
    · exact .inl (by decide)

/-! ## Examples -/

/-- The class of word characters of the examples meets what the theorems ask. -/
example : (∀ c ∈ c!"(){}-,;.!", MagicDemo.isWord c = false) ∧
    (∀ c, isSpace c = true → MagicDemo.isWord c = false) := by
  refine ⟨by decide, fun c hc => ?_⟩
  simp only [isSpace, Bool.or_eq_true, Bool.and_eq_true, decide_eq_true_eq, beq_iff_eq] at hc
  unfold MagicDemo.isWord
  rw [Bool.or_eq_false_iff]
  constructor
  · have e : c.val.toNat = c.toNat := rfl
    simp only [Char.isAlphanum, Char.isAlpha, Char.isUpper, Char.isLower, Char.isDigit, Bool.or_eq_false_iff,
      Bool.and_eq_false_iff, decide_eq_false_iff_not, UInt32.le_iff_toNat_le, e]
    simp
    omega
  · rw [beq_eq_false_iff_ne]
    rintro rfl
    revert hc
    decide

/-- All the rules at once. -/
example : cleanMagic MagicDemo.isWord MagicDemo.weight c!"cat" c!"cat ;. big -  eyed) ; .(b .;. Dog, , 5 _ x!, y" =
    c!"cat big-eyed) ;, (b, Dog, (5 x:1.1), y" := by decide +kernel

/-- A separator before a digit stays. -/
example : cleanMagic MagicDemo.isWord MagicDemo.weight c!"cat" c!"cat a ; 5" = c!"cat a ; 5" := by decide +kernel

end Verif.Props
