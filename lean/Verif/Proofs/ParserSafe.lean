import Verif.Proofs.ParserElems
/-! # What is not a bound, a weight or a separator -/

namespace Verif
open Spec (Reader marked markedTail markedLine calm weightChar)

/-! ## Bounds and weights -/

theorem weightChar_solid {c : Char} (h : weightChar c = true) {u : Str} : Solid (c :: u) := by
  simp only [weightChar, digit_eq, Bool.or_eq_true] at h
  rcases h with h | h
  · exact num_solid (ds := [c]) (by simp [h]) (by simp)
  · simp only [List.contains_cons, List.contains_nil, Bool.or_false, Bool.or_eq_true, beq_iff_eq] at h
    rcases h with rfl | rfl | rfl <;> rfl

theorem comment_head_ne {s r : Str} (h : comment s = some r) {d : Char} (hd : d = '$' ∨ d = ':') :
    [d, d].isPrefixOf s = false ∧ s.head?.any weightChar = false := by
  obtain ⟨c, cs, rfl, hc⟩ := comment_some_head h
  constructor
  · refine isPrefixOf_head ?_ (by simp)
    rintro _ ⟨⟩ e
    cases e
    rcases hd with rfl | rfl <;> revert hc <;> decide
  · rw [Bool.eq_false_iff]
    intro hw
    rw [(weightChar_solid hw).comment] at h
    cases h

theorem Guarded.inert {d : Char} {s : Str} (h : [d, d].isPrefixOf s = false)
    (hh : s.head?.any weightChar = false ∨ c!"++".isPrefixOf s = true) (hc : comment s = none) :
    Guarded d s := by
  intro s' he
  cases he with
  | refl => exact h
  | char hw hp _ =>
    rcases hh with hh | hh
    · simp only [List.head?_cons, Option.any_some] at hh
      rw [hw] at hh
      cases hh
    · rw [List.isPrefixOf_iff_prefix] at hh
      obtain ⟨r, hr⟩ := hh
      cases hr
      exact absurd rfl (hp rfl)
  | note hn _ => rw [hn] at hc; cases hc

theorem Guarded.step {d : Char} (hd : d = '$' ∨ d = ':') {s r : Str} (h : comment s = some r)
    (hr : Guarded d r) : Guarded d s := by
  obtain ⟨h1, h2⟩ := comment_head_ne h hd
  intro s' he
  cases he with
  | refl => exact h1
  | char hw _ _ =>
    simp only [List.head?_cons, Option.any_some] at h2
    rw [hw] at h2
    cases h2
  | note hn he =>
    rw [hn] at h
    cases h
    exact hr _ he

/-- White space before a text. -/
theorem Guarded.blank {d : Char} (hd : d = '$' ∨ d = ':') {b R : Str} (hb : b.all isWs = true)
    (hR : Guarded d R) : Guarded d (b ++ R) := by
  cases b with
  | nil => exact hR
  | cons c b =>
    have hc : isWs c = true := by
      simp only [List.all_cons, Bool.and_eq_true] at hb; exact hb.1
    intro s' he
    cases he with
    | refl =>
      refine isPrefixOf_head ?_ (by simp)
      rintro _ ⟨⟩ e
      cases e
      rcases hd with rfl | rfl <;> revert hc <;> decide
    | char hw _ _ =>
      have := (weightChar_solid hw (u := [])).noWs
      simp only [List.head?_cons, Option.any_some] at this
      rw [hc] at this
      cases this
    | note hn he =>
      have := comment_blank (u := R) hb
      exact hR _ (.note (this.symm.trans hn) he)

theorem Guarded.gap {d : Char} (hd : d = '$' ∨ d = ':') {w R : Str} {ρ : Reader}
    (h : Reader.out.read w = some ρ) (hρ : ρ = .out ∨ ρ = .closed ∨ ρ = .line) (hR : LineEnd ρ R)
    (hg : Guarded d R) : Guarded d (w ++ R) :=
  gap_induct (motive := fun w => Guarded d (w ++ R)) (fun _ hw => .blank hd hw hg)
    (fun _ _ hc ih => .step hd hc ih) h hρ hR

theorem last_tail {c : Char} {t R : Str} (h : (c :: t).getLast? = some '/' → NoMark R) :
    t.getLast? = some '/' → NoMark R := by
  intro e
  apply h
  cases t with
  | nil => cases e
  | cons d t => rw [List.getLast?_cons_cons]; exact e

theorem Guarded.text {d : Char} (hd : d = '$' ∨ d = ':') {R : Str}
    (hg : Guarded d R) : ∀ {t : Str}, (t.getLast? = some '/' → NoMark R) →
    marked (t.dropWhile weightChar) = false →
    (∀ c r, t.dropWhile weightChar = c :: r → [d, d].isPrefixOf (c :: r ++ R) = false) →
    Guarded d (t ++ R)
  | [], _, _, _ => hg
  | c :: t, hR, hm, hx => by
    by_cases hw : weightChar c = true
    · rw [List.dropWhile_cons, if_pos hw] at hm hx
      have ih := Guarded.text hd hg (last_tail hR) hm hx
      intro s' he
      cases he with
      | refl =>
        refine isPrefixOf_head ?_ (by simp)
        rintro _ ⟨⟩ e
        cases e
        rcases hd with rfl | rfl <;> revert hw <;> decide
      | char _ _ he => exact ih _ he
      | note hn _ =>
        rw [List.cons_append, (weightChar_solid hw).comment] at hn
        cases hn
    · rw [List.dropWhile_cons, if_neg hw] at hm hx
      by_cases hb : (c :: t).all isWs = true
      · exact .blank hd hb hg
      · exact .inert (hx c t rfl) (.inl (by simpa using hw))
          (comment_unmarked hm (Bool.eq_false_iff.2 hb) hR)

/-! ## Separators -/

theorem dropWhile_append_cases (p : Char → Bool) : ∀ (b u : Str),
    (b.all p = true ∧ (b ++ u).dropWhile p = u.dropWhile p) ∨
    (∃ c r, b.dropWhile p = c :: r ∧ (b ++ u).dropWhile p = c :: r ++ u)
  | b, u => by
    by_cases h : b.all p = true
    · exact .inl ⟨h, dropWhile_all_append h⟩
    · obtain ⟨c, r, h1, -⟩ := dropWhile_ne_nil (Bool.eq_false_iff.2 h)
      exact .inr ⟨c, r, h1, by rw [dropWhile_append_some u (Bool.eq_false_iff.2 h), h1]⟩

theorem blank_front {b u : Str} (hb : b.all isWs = true) (hc : comment u = none)
    (h : c!"$$".isPrefixOf u = false) : c!"$$".isPrefixOf (skip (b ++ u)) = false := by
  rw [skip_none (by rw [comment_blank hb, hc])]
  cases b with
  | nil => exact h
  | cons c b =>
    simp only [List.all_cons, Bool.and_eq_true] at hb
    refine isPrefixOf_head ?_ (by simp)
    rintro _ ⟨⟩ e
    cases e
    exact absurd hb.1 (by decide)

/-- It is enough to look at the text itself and at the text after white space. -/
theorem Safe.mk' {u : Str} (h1 : c!"$$".isPrefixOf (skip (u.dropWhile isSepChar)) = false)
    (h2 : ∀ b : Str, b.all isWs = true → c!"$$".isPrefixOf (skip (b ++ u)) = false) : Safe u := by
  refine ⟨fun b hb => ?_, h2⟩
  rcases dropWhile_append_cases isSepChar b u with ⟨-, h⟩ | ⟨c, r, h, h'⟩
  · rw [h]; exact h1
  · rw [h']
    refine h2 (c :: r) ?_
    rw [List.all_eq_true] at hb ⊢
    intro x hx
    exact hb x ((List.dropWhile_suffix isSepChar).subset (by rw [h]; exact hx))

theorem Safe.stop {u : Str} (hs : Solid u) (hn : u.head?.any isSepChar = false)
    (hp : c!"$$".isPrefixOf u = false) : Safe u := by
  refine .mk' ?_ fun b hb => blank_front hb hs.comment hp
  rw [dropWhile_head_any hn, hs.skip]
  exact hp

theorem Safe.hard {c : Char} {u : Str} (hs : isSepChar c = true) (hc : Solid [c]) (h : Safe u) :
    Safe (c :: u) := by
  refine .mk' ?_ fun b hb => blank_front hb (Solid.comment (u := c :: u) hc) ?_
  · rw [List.dropWhile_cons, if_pos hs]
    exact h.run [] rfl
  · refine isPrefixOf_head ?_ (by simp)
    rintro _ ⟨⟩ e
    cases e
    exact absurd hs (by decide)

theorem Safe.hards {u : Str} (h : Safe u) : ∀ {t : Str},
    t.all (fun c => isSepChar c && !(isWs c || c == '#' || c == '/')) = true → Safe (t ++ u)
  | [], _ => h
  | c :: t, ht => by
    simp only [List.all_cons, Bool.and_eq_true] at ht
    exact .hard ht.1.1 (by simpa [Solid] using ht.1.2) (Safe.hards h ht.2)

/-- White space that is no separator. -/
theorem sep_space {c : Char} (h : isSepChar c = false) : c ≠ ' ' ∧ c ≠ '#' ∧ c ≠ '/' ∧ c ≠ '*' := by
  refine ⟨?_, ?_, ?_, ?_⟩ <;> rintro rfl <;> revert h <;> decide

theorem dollar_prefix {c : Char} {s : Str} (h : c ≠ '$') : c!"$$".isPrefixOf (c :: s) = false := by
  refine isPrefixOf_head ?_ (by simp)
  rintro _ ⟨⟩ e
  cases e
  exact h rfl

theorem Safe.text_run {u : Str} (h : Safe u) :
    ∀ {t : Str}, (t.getLast? = some '/' → NoMark u) → '$' ∉ t → markedTail t = false →
    c!"$$".isPrefixOf (skip ((t ++ u).dropWhile isSepChar)) = false
  | [], _, _, _ => h.run [] rfl
  | c :: t, hu, hd, hm => by
    simp only [List.mem_cons, not_or] at hd
    simp only [markedTail, Bool.or_eq_false_iff, blank_eq] at hm
    rw [List.cons_append, List.dropWhile_cons]
    split
    · exact Safe.text_run h (last_tail hu) hd.2 hm.2
    · rename_i hs
      have hs := sep_space (Bool.eq_false_iff.2 hs)
      by_cases hw : isWs c = true
      · have hm' : marked t = false := by simpa [hw, hs.1] using hm.1
        by_cases hb : t.all isWs = true
        · have := h.front (c :: t) (by simp only [List.all_cons, hw, hb]; rfl)
          exact this
        · have hc : comment (c :: (t ++ u)) = none := by
            have := comment_blank (b := [c]) (u := t ++ u) (by simpa using hw)
            rw [List.singleton_append] at this
            rw [this, comment_unmarked hm' (Bool.eq_false_iff.2 hb) (last_tail hu)]
          rw [skip_none hc]
          exact dollar_prefix (Ne.symm hd.1)
      · have : Solid (c :: (t ++ u)) := solid_cons (by simp [hw, hs.2.1, hs.2.2.1])
        rw [this.skip]
        exact dollar_prefix (Ne.symm hd.1)

theorem Safe.text {t u : Str} (hd : '$' ∉ t) (hm : markedLine t = false)
    (hu : t.getLast? = some '/' → NoMark u) (h : Safe u) : Safe (t ++ u) := by
  simp only [markedLine, Bool.or_eq_false_iff] at hm
  refine .mk' (Safe.text_run h hu hd hm.2) fun b hb => ?_
  by_cases hw : t.all isWs = true
  · rw [← List.append_assoc]
    exact h.front (b ++ t) (by rw [List.all_append, hb, hw]; rfl)
  · refine blank_front hb (comment_unmarked hm.1 (Bool.eq_false_iff.2 hw) hu) ?_
    cases t with
    | nil => exact absurd rfl hw
    | cons c t =>
      simp only [List.mem_cons, not_or] at hd
      exact dollar_prefix (Ne.symm hd.1)

/-- Before and in a mark there is no danger, if the mark has a character that ends separators, or there is
no danger after it. -/
theorem Safe.ofMark {u : Str} : ∀ {d : Str}, d.all (fun c => !isWs c && c != '#' && c != '/') = true →
    hasSub c!"$$" d = false → (d.getLast? ≠ some '$') → (d.any (fun c => !isSepChar c) = true ∨ Safe u) →
    Safe (d ++ u)
  | [], _, _, _, h => by
    rcases h with h | h
    · cases h
    · exact h
  | c :: d, h1, h2, h3, h => by
    simp only [List.all_cons, Bool.and_eq_true, Bool.not_eq_true', bne_iff_ne, ne_eq] at h1
    simp only [hasSub, Bool.or_eq_false_iff] at h2
    have hsol : Solid (c :: (d ++ u)) := solid_cons (by simp [h1.1.1.1, h1.1.1.2, h1.1.2])
    by_cases hs : isSepChar c = true
    · refine .hard hs hsol ?_
      by_cases hd : d = []
      · subst hd
        rcases h with h | h
        · simp [hs] at h
        · exact h
      · refine Safe.ofMark (by simpa using h1.2) h2.2 ?_ ?_
        · cases d with
          | nil => exact absurd rfl hd
          | cons e d => rwa [List.getLast?_cons_cons] at h3
        · rcases h with h | h
          · simp only [List.any_cons, hs, Bool.not_true, Bool.false_or] at h
            exact .inl h
          · exact .inr h
    · refine .stop hsol (by simpa using hs) ?_
      rw [List.cons_append]
      cases d with
      | nil =>
        refine dollar_prefix ?_
        rintro rfl
        exact h3 rfl
      | cons e d =>
        have := h2.1
        simpa [List.isPrefixOf] using this

theorem read_append : ∀ (r : Reader) (a b : Str), r.read (a ++ b) = (r.read a).bind fun r => r.read b
  | r, [], b => by rw [Reader.read]; rfl
  | r, c :: a, b => by
    rw [List.cons_append, read_cons, read_cons]
    cases r.step c with
    | none => rfl
    | some r => exact read_append r a b

/-- A slash after white space ends no comment. -/
theorem slash_open : ∀ {b : Str} {r ρ : Reader}, b.all isWs = true → (r = .line ∨ r = .out ∨ r = .block) →
    r.read (b ++ ['/']) = some ρ → ρ ≠ .out ∧ ρ ≠ .closed
  | [], r, ρ, _, hr, h => by
    rcases hr with rfl | rfl | rfl <;>
    · rw [List.nil_append, read_cons] at h
      simp [Reader.step, Spec.blank, Reader.read] at h
      subst h
      simp
  | c :: b, r, ρ, hb, hr, h => by
    simp only [List.all_cons, Bool.and_eq_true] at hb
    rw [List.cons_append, read_cons] at h
    have hc : c ≠ '*' := by
      rintro rfl; exact absurd hb.1 (by decide)
    rcases hr with rfl | rfl | rfl
    · by_cases hn : c = '\n'
      · subst hn; exact slash_open hb.2 (.inr (.inl rfl)) h
      · simp only [Reader.step, hn, if_false] at h
        exact slash_open hb.2 (.inl rfl) h
    · simp only [Reader.step, blank_eq, hb.1, if_true] at h
      exact slash_open hb.2 (.inr (.inl rfl)) h
    · simp only [Reader.step, hc, if_false] at h
      exact slash_open hb.2 (.inr (.inr rfl)) h

/-- In a comment, what does not begin with a mark begins no comment. -/
theorem comment_inside {w u : Str} {r ρ : Reader} (hr : r = .line ∨ r = .block) (h : r.read w = some ρ)
    (hρ : ρ = .out ∨ ρ = .closed ∨ ρ = .line) (hR : LineEnd ρ u) (hm : marked w = false)
    (hb : w.all isWs = false) : comment (w ++ u) = none := by
  by_cases hl : ρ = .line
  · refine comment_unmarked hm hb fun _ => ?_
    rcases hR hl with rfl | h
    · rfl
    · rw [NoMark, h]; rfl
  · obtain ⟨c, t, hd, hc⟩ := dropWhile_ne_nil hb
    have hsplit := List.takeWhile_append_dropWhile (p := isWs) (l := w)
    rw [hd] at hsplit
    unfold marked at hm
    rw [blank_eq, hd] at hm
    cases t with
    | cons d t =>
      refine comment_none_head (c := c) (r := d :: t ++ u) (by rw [dropWhile_append_some u hb, hd]; rfl) ?_ ?_ ?_
      · rintro rfl; simp at hm
      all_goals
        rw [Bool.eq_false_iff]
        intro hp
        simp only [List.cons_append, List.isPrefixOf, Bool.and_eq_true, beq_iff_eq] at hp
        obtain ⟨rfl, rfl, -⟩ := hp
        simp at hm
    | nil =>
      have hne : c ≠ '/' := by
        rintro rfl
        rw [← hsplit] at h
        have := slash_open List.all_takeWhile (by rcases hr with h | h <;> simp [h]) h
        rcases hρ with h | h | h
        · exact this.1 h
        · exact this.2 h
        · exact hl h
      refine comment_none_head (c := c) (r := u) (by rw [dropWhile_append_some u hb, hd]; rfl) ?_ ?_ ?_
      · rintro rfl; simp at hm
      · simp [List.isPrefixOf, Ne.symm hne]
      · simp [List.isPrefixOf, Ne.symm hne]

theorem Safe.gap_front {w u : Str} {ρ : Reader} (h : Reader.out.read w = some ρ)
    (hρ : ρ = .out ∨ ρ = .closed ∨ ρ = .line) (hR : LineEnd ρ u) (hu : Safe u) :
    c!"$$".isPrefixOf (skip (w ++ u)) = false := by
  obtain ⟨b, hb, he⟩ := skip_gap h hρ hR
  rw [he]
  exact hu.front b hb

theorem Safe.gap_run {u : Str} {ρ : Reader} (hρ : ρ = .out ∨ ρ = .closed ∨ ρ = .line) (hR : LineEnd ρ u)
    (hu : Safe u) : ∀ {w : Str} {r : Reader}, r.read w = some ρ → calm r w = true →
    c!"$$".isPrefixOf (skip ((w ++ u).dropWhile isSepChar)) = false
  | [], _, _, _ => hu.run [] rfl
  | c :: w, r, h, hc => by
    have h0 := h
    rw [read_cons] at h
    rw [calm] at hc
    simp only [Bool.and_eq_true, bne_iff_ne, ne_eq, Bool.not_eq_true'] at hc
    obtain ⟨⟨hd, hm⟩, hc⟩ := hc
    cases hs : r.step c with
    | none => rw [hs] at h; cases h
    | some r' =>
      rw [hs] at h hc
      dsimp only at h hc
      rw [List.cons_append, List.dropWhile_cons]
      split
      · exact Safe.gap_run hρ hR hu h hc
      · rename_i hsep
        have hsp := sep_space (Bool.eq_false_iff.2 hsep)
        by_cases hw : isWs c = true
        · by_cases hout : Reader.out.read (c :: w) = some ρ
          · exact Safe.gap_front hout hρ hR hu
          · -- in a comment
            have hin : (r = .line ∨ r = .block ∨ r = .star) ∧ ¬(r = .line ∧ c = '\n') := by
              constructor
              · cases r with
                | out => exact absurd h0 hout
                | closed => rw [closed_read_cons] at h0; exact absurd h0 hout
                | slash => simp [Reader.step, hsp.2.2.1, hsp.2.2.2] at hs
                | line => exact .inl rfl
                | block => exact .inr (.inl rfl)
                | star => exact .inr (.inr rfl)
              · rintro ⟨rfl, rfl⟩
                apply hout
                rw [read_cons]
                cases hs
                exact h
            have hm' : marked w = false := by
              have e1 : [Reader.line, .block, .star].contains r = true := by
                rcases hin.1 with rfl | rfl | rfl <;> rfl
              have e2 : (r == .line && c == '\n') = false := by
                rw [Bool.eq_false_iff]
                intro e
                simp only [Bool.and_eq_true, beq_iff_eq] at e
                exact hin.2 e
              rw [e1, e2, blank_eq, hw] at hm
              simpa [hsp.1] using hm
            by_cases hb : w.all isWs = true
            · exact hu.front (c :: w) (by simp only [List.all_cons, hw, hb]; rfl)
            · have hr' : r' = .line ∨ r' = .block := by
                have hns : c ≠ '*' := by
                  rintro rfl; exact absurd hw (by decide)
                have hns' : c ≠ '/' := by
                  rintro rfl; exact absurd hw (by decide)
                rcases hin.1 with rfl | rfl | rfl
                · have : c ≠ '\n' := fun e => hin.2 ⟨rfl, e⟩
                  simp only [Reader.step, this, if_false, Option.some.injEq] at hs
                  exact .inl hs.symm
                · simp only [Reader.step, hns, if_false, Option.some.injEq] at hs
                  exact .inr hs.symm
                · simp only [Reader.step, hns, hns', if_false, Option.some.injEq] at hs
                  exact .inr hs.symm
              have hcm : comment (c :: (w ++ u)) = none := by
                have := comment_blank (b := [c]) (u := w ++ u) (by simpa using hw)
                rw [List.singleton_append] at this
                rw [this, comment_inside hr' h hρ hR hm' (Bool.eq_false_iff.2 hb)]
              rw [skip_none hcm]
              exact dollar_prefix hd
        · have : Solid (c :: (w ++ u)) := solid_cons (by simp [hw, hsp.2.1, hsp.2.2.1])
          rw [this.skip]
          exact dollar_prefix hd

theorem Safe.gap {w u : Str} {ρ : Reader} (h : Reader.out.read w = some ρ)
    (hρ : ρ = .out ∨ ρ = .closed ∨ ρ = .line) (hR : LineEnd ρ u) (hc : calm .out w = true) (hu : Safe u) :
    Safe (w ++ u) := by
  refine .mk' (Safe.gap_run hρ hR hu h hc) fun b hb => ?_
  rw [← List.append_assoc]
  exact Safe.gap_front (w := b ++ w) (by rw [read_blank hb, h]) hρ hR hu

end Verif
