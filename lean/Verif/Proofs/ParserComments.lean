import Verif.Spec.Syntax
import Verif.Proofs.ParserTotal
/-! # Comments and white space -/

namespace Verif
open Spec (blank Reader marked)

theorem blank_eq : blank = isWs := by
  funext c
  rw [Bool.eq_iff_iff]
  simp [blank, isWs, or_assoc]

theorem dropWhile_all_append {p : Char → Bool} : ∀ {a b : Str}, a.all p →
    (a ++ b).dropWhile p = b.dropWhile p
  | [], _, _ => rfl
  | c :: a, b, h => by
    simp only [List.all_cons, Bool.and_eq_true] at h
    rw [List.cons_append, List.dropWhile_cons, if_pos h.1, dropWhile_all_append h.2]

theorem dropWhile_head_any {p : Char → Bool} {s : Str} (h : s.head?.any p = false) : s.dropWhile p = s := by
  cases s with
  | nil => rfl
  | cons c s =>
    simp only [List.head?_cons, Option.any_some] at h
    rw [List.dropWhile_cons, if_neg (by simp [h])]

theorem dropWhile_append_some {p : Char → Bool} : ∀ {t : Str} (u : Str), t.all p = false →
    (t ++ u).dropWhile p = t.dropWhile p ++ u
  | [], _, h => by simp at h
  | c :: t, u, h => by
    rw [List.cons_append]
    by_cases hc : p c = true
    · simp only [List.dropWhile_cons, hc, if_true]
      exact dropWhile_append_some u (by simpa [hc] using h)
    · simp [hc]

theorem dropWhile_ne_nil {p : Char → Bool} {t : Str} (h : t.all p = false) :
    ∃ c r, t.dropWhile p = c :: r ∧ p c = false := by
  induction t with
  | nil => simp at h
  | cons c t ih =>
    by_cases hc : p c = true
    · obtain ⟨d, r, h1, h2⟩ := ih (by simpa [hc] using h)
      exact ⟨d, r, by rw [List.dropWhile_cons, if_pos hc, h1], h2⟩
    · exact ⟨c, t, by rw [List.dropWhile_cons, if_neg hc], by simpa using hc⟩

/-! ## Skipping -/

theorem comment_none_head {s : Str} {c : Char} {r : Str} (h : s.dropWhile isWs = c :: r) (hc : c ≠ '#')
    (h1 : c!"//".isPrefixOf (c :: r) = false) (h2 : c!"/*".isPrefixOf (c :: r) = false) :
    comment s = none := by
  unfold comment
  rw [h]
  split
  · rename_i r' e
    simp only [List.cons.injEq] at e
    exact absurd e.1 hc
  · rename_i r' e
    rw [e] at h1
    simp [List.isPrefixOf] at h1
  · rename_i r' e
    rw [e] at h2
    simp [List.isPrefixOf] at h2
  · rfl

theorem skip_none {s : Str} (h : comment s = none) : skip s = s := by
  unfold skip
  cases s.length with
  | zero => rfl
  | succ n => unfold skipN; rw [h]

theorem skipN_enough : ∀ (n m : Nat) (s : Str), s.length ≤ n → s.length ≤ m → skipN n s = skipN m s
  | 0, 0, _, _, _ => rfl
  | 0, m + 1, s, h, _ => by
    have : s = [] := List.length_eq_zero_iff.1 (Nat.le_zero.1 h)
    subst this; rfl
  | n + 1, 0, s, _, h => by
    have : s = [] := List.length_eq_zero_iff.1 (Nat.le_zero.1 h)
    subst this; rfl
  | n + 1, m + 1, s, hn, hm => by
    unfold skipN
    cases h : comment s with
    | none => rfl
    | some r =>
      have := comment_length h
      exact skipN_enough n m r (by omega) (by omega)

theorem skip_comment {s r : Str} (h : comment s = some r) : skip s = skip r := by
  have hl := comment_length h
  unfold skip
  obtain ⟨n, hn⟩ : ∃ n, s.length = n + 1 := ⟨s.length - 1, by omega⟩
  rw [hn]
  show (match comment s with | none => s | some r => skipN n r) = _
  rw [h]
  exact skipN_enough _ _ _ (by omega) (Nat.le_refl _)

theorem comment_skip (s : Str) : comment (skip s) = none := by
  induction hn : s.length using Nat.strongRecOn generalizing s with
  | ind n ih =>
    cases h : comment s with
    | none => rw [skip_none h]; exact h
    | some r =>
      rw [skip_comment h]
      exact ih r.length (by rw [← hn]; exact comment_length h) r rfl

theorem skip_skip (s : Str) : skip (skip s) = skip s := skip_none (comment_skip s)

theorem comment_blank {b u : Str} (hb : b.all isWs = true) : comment (b ++ u) = comment u := by
  unfold comment
  rw [dropWhile_all_append hb]

/-- The text begins with neither white space nor anything that belongs to a comment. -/
def Solid (u : Str) : Prop := u.head?.any (fun c => isWs c || c == '#' || c == '/') = false

/-- The text cannot form the beginning of a comment with a slash before it. -/
abbrev NoMark (u : Str) : Prop := u.head?.any (fun c => c == '/' || c == '*') = false

theorem Solid.noWs {u : Str} (h : Solid u) : u.head?.any isWs = false := by
  unfold Solid at h
  cases u with
  | nil => rfl
  | cons c u =>
    simp only [List.head?_cons, Option.any_some, Bool.or_eq_false_iff] at h ⊢
    exact h.1.1

theorem Solid.comment {u : Str} (h : Solid u) : comment u = none := by
  cases u with
  | nil => rfl
  | cons c u =>
    have hw := h.noWs
    unfold Solid at h
    simp only [List.head?_cons, Option.any_some, Bool.or_eq_false_iff, beq_eq_false_iff_ne, ne_eq] at h
    refine comment_none_head (c := c) (r := u) (dropWhile_head_any hw) h.1.2 ?_ ?_ <;>
      simp [List.isPrefixOf, Ne.symm h.2]

theorem Solid.skip {u : Str} (h : Solid u) : skip u = u := skip_none h.comment

theorem Solid.blank_comment {b u : Str} (h : Solid u) (hb : b.all isWs = true) :
    Verif.comment (b ++ u) = none := by
  rw [comment_blank hb, h.comment]

theorem solid_cons {c : Char} {u : Str} (h : (isWs c || c == '#' || c == '/') = false) :
    Solid (c :: u) := h

/-- Text that is not blank and has no mark of a comment at the beginning. -/
theorem comment_unmarked {t u : Str} (hm : marked t = false) (hb : t.all isWs = false)
    (hu : t.getLast? = some '/' → NoMark u) : comment (t ++ u) = none := by
  obtain ⟨c, r, hd, -⟩ := dropWhile_ne_nil hb
  have hsplit := List.takeWhile_append_dropWhile (p := isWs) (l := t)
  rw [hd] at hsplit
  unfold marked at hm
  rw [blank_eq, hd] at hm
  refine comment_none_head (c := c) (r := r ++ u) (by rw [dropWhile_append_some u hb, hd]; rfl) ?_ ?_ ?_
  · rintro rfl; simp at hm
  all_goals
    rw [Bool.eq_false_iff]
    intro hp
    cases r with
    | nil =>
      cases u with
      | nil => simp [List.isPrefixOf] at hp
      | cons d u =>
        simp only [List.nil_append, List.isPrefixOf, Bool.and_eq_true, beq_iff_eq] at hp
        have hu := hu (by rw [← hsplit, ← hp.1]; simp)
        simp only [NoMark, List.head?_cons, Option.any_some, Bool.or_eq_false_iff, beq_eq_false_iff_ne,
          ne_eq] at hu
        first
          | exact hu.1 hp.2.1.symm
          | exact hu.2 hp.2.1.symm
    | cons d r =>
      simp only [List.cons_append, List.isPrefixOf, Bool.and_eq_true, beq_iff_eq] at hp
      obtain ⟨rfl, rfl, -⟩ := hp
      simp at hm

theorem comment_some_head {s r : Str} (h : comment s = some r) :
    ∃ c cs, s = c :: cs ∧ (isWs c = true ∨ c = '#' ∨ c = '/') := by
  cases s with
  | nil => simp [comment] at h
  | cons c cs =>
    refine ⟨c, cs, rfl, ?_⟩
    by_cases hw : isWs c = true
    · exact .inl hw
    · right
      unfold comment at h
      rw [List.dropWhile_cons, if_neg hw] at h
      split at h
      · rename_i e; cases e; exact .inl rfl
      · rename_i e; cases e; exact .inr rfl
      · rename_i e; cases e; exact .inr rfl
      · cases h

/-! ## Gaps -/

theorem read_cons (r : Reader) (c : Char) (cs : Str) :
    r.read (c :: cs) = match r.step c with
      | none => none
      | some r => r.read cs := by rw [Reader.read]; cases r.step c <;> rfl

theorem closed_read_cons (c : Char) (cs : Str) : Reader.closed.read (c :: cs) = Reader.out.read (c :: cs) := by
  rw [read_cons, read_cons]; rfl

theorem read_blank : ∀ {b w : Str}, b.all isWs = true → Reader.out.read (b ++ w) = Reader.out.read w
  | [], _, _ => rfl
  | c :: b, w, h => by
    simp only [List.all_cons, Bool.and_eq_true] at h
    rw [List.cons_append, read_cons]
    simp only [Reader.step, blank_eq, h.1, if_true]
    exact read_blank h.2

theorem line_read : ∀ {w : Str} {ρ : Reader}, Reader.line.read w = some ρ →
    (ρ = .line ∧ '\n' ∉ w) ∨
    ∃ a w3, w = a ++ '\n' :: w3 ∧ '\n' ∉ a ∧ Reader.out.read ('\n' :: w3) = some ρ
  | [], ρ, h => by
    simp only [Reader.read, Option.some.injEq] at h
    exact .inl ⟨h.symm, by simp⟩
  | c :: w, ρ, h => by
    rw [read_cons] at h
    by_cases hc : c = '\n'
    · subst hc
      exact .inr ⟨[], w, rfl, by simp, h⟩
    · simp only [Reader.step, hc, if_false] at h
      rcases line_read h with ⟨h1, h2⟩ | ⟨a, w3, rfl, h1, h2⟩
      · exact .inl ⟨h1, by simp [h2, Ne.symm hc]⟩
      · exact .inr ⟨c :: a, w3, rfl, by simp [h1, Ne.symm hc], h2⟩

theorem star_read {c : Char} {w : Str} (hc : c ≠ '/') :
    Reader.star.read (c :: w) = Reader.block.read (c :: w) := by
  rw [read_cons, read_cons]
  simp only [Reader.step, hc, if_false]

theorem block_read : ∀ {w : Str} {ρ : Reader}, Reader.block.read w = some ρ →
    ρ = .block ∨ ρ = .star ∨
    ∃ w3, (∀ R, closeComment (w ++ R) = some (w3 ++ R)) ∧ Reader.closed.read w3 = some ρ ∧
      w3.length < w.length
  | [], ρ, h => by
    simp only [Reader.read, Option.some.injEq] at h
    exact .inl h.symm
  | [c], ρ, h => by
    rw [read_cons] at h
    by_cases hc : c = '*'
    · subst hc
      simp only [Reader.step, if_true, Reader.read, Option.some.injEq] at h
      exact .inr (.inl h.symm)
    · simp only [Reader.step, hc, if_false, Reader.read, Option.some.injEq] at h
      exact .inl h.symm
  | c :: d :: w, ρ, h => by
    rw [read_cons] at h
    by_cases hcd : c = '*' ∧ d = '/'
    · obtain ⟨rfl, rfl⟩ := hcd
      refine .inr (.inr ⟨w, fun R => rfl, ?_, by simp only [List.length_cons]; omega⟩)
      rw [show Reader.block.step '*' = some .star from rfl] at h
      dsimp only at h
      rw [read_cons] at h
      exact h
    · have hr : Reader.block.read (d :: w) = some ρ := by
        by_cases hc : c = '*'
        · subst hc
          rw [show Reader.block.step '*' = some .star from rfl] at h
          dsimp only at h
          rw [← star_read (fun e => hcd ⟨rfl, e⟩)]
          exact h
        · simp only [Reader.step, hc, if_false] at h
          exact h
      rcases block_read hr with h | h | ⟨w3, h1, h2, h3⟩
      · exact .inl h
      · exact .inr (.inl h)
      · refine .inr (.inr ⟨w3, fun R => ?_, h2, by simp only [List.length_cons] at h3 ⊢; omega⟩)
        rw [← h1 R, List.cons_append, List.cons_append]
        show (match c, d :: (w ++ R) with
          | '*', '/' :: r => some r
          | _, _ => closeComment (d :: (w ++ R))) = _
        split
        · rename_i e; cases e; exact absurd ⟨rfl, rfl⟩ hcd
        · rfl

/-- What a line comment needs after it. -/
def LineEnd (ρ : Reader) (R : Str) : Prop := ρ = .line → R = [] ∨ R.head? = some '\n'

theorem line_drop {w R : Str} (hw : '\n' ∉ w) (hR : R = [] ∨ R.head? = some '\n') :
    (w ++ R).dropWhile (· ≠ '\n') = R := by
  rw [dropWhile_all_append, dropWhile_head_any]
  · rcases hR with rfl | h
    · rfl
    · rw [h]; rfl
  · rw [List.all_eq_true]
    intro c hc
    rw [decide_eq_true_eq]
    rintro rfl
    exact hw hc

theorem comment_hash {b w : Str} (hb : b.all isWs = true) :
    comment (b ++ '#' :: w) = some (w.dropWhile (· ≠ '\n')) := by
  rw [comment_blank hb]; rfl

theorem comment_slashes {b w : Str} (hb : b.all isWs = true) :
    comment (b ++ '/' :: '/' :: w) = some (w.dropWhile (· ≠ '\n')) := by
  rw [comment_blank hb]; rfl

theorem comment_block {b w : Str} (hb : b.all isWs = true) :
    comment (b ++ '/' :: '*' :: w) = closeComment w := by
  rw [comment_blank hb]; rfl

/-- White space and comments: only white space, or a comment and the rest. -/
theorem gap_cases {w : Str} {ρ : Reader} (h : Reader.out.read w = some ρ)
    (hρ : ρ = .out ∨ ρ = .closed ∨ ρ = .line) :
    (w.all isWs = true ∧ ρ = .out) ∨
    ∃ w3, w3.length < w.length ∧ (∀ R, LineEnd ρ R → comment (w ++ R) = some (w3 ++ R)) ∧
      (w3 = [] ∨ Reader.out.read w3 = some ρ) := by
  have hsplit := List.takeWhile_append_dropWhile (p := isWs) (l := w)
  have hb : (w.takeWhile isWs).all isWs = true := List.all_takeWhile
  generalize hbe : w.takeWhile isWs = b at hsplit hb
  cases hw : w.dropWhile isWs with
  | nil =>
    left
    rw [hw, List.append_nil] at hsplit
    subst hsplit
    have := read_blank (w := []) hb
    rw [List.append_nil, h] at this
    exact ⟨hb, by simpa [Reader.read] using this⟩
  | cons c t =>
    right
    have hc : isWs c = false := by
      by_cases ha : w.all isWs = false
      · obtain ⟨d, r, h1, h2⟩ := dropWhile_ne_nil ha
        rw [hw] at h1
        cases h1
        exact h2
      · rw [Bool.not_eq_false] at ha
        have := dropWhile_all_append (b := []) ha
        rw [List.append_nil, hw] at this
        cases this
    rw [hw] at hsplit
    subst hsplit
    rw [read_blank hb, read_cons] at h
    simp only [Reader.step, blank_eq, hc, Bool.false_eq_true, if_false] at h
    -- a comment to the end of the line
    have hline : ∀ (m v : Str), (∀ w, comment (b ++ (m ++ w)) = some (w.dropWhile (· ≠ '\n'))) → m ≠ [] →
        Reader.line.read v = some ρ → ∃ w3, w3.length < (b ++ (m ++ v)).length ∧
          (∀ R, LineEnd ρ R → comment ((b ++ (m ++ v)) ++ R) = some (w3 ++ R)) ∧
          (w3 = [] ∨ Reader.out.read w3 = some ρ) := by
      intro m v hcm hm hv
      have hlm := List.length_pos_iff.2 hm
      rcases line_read hv with ⟨rfl, h2⟩ | ⟨a, w3, rfl, h1, h2⟩
      · refine ⟨[], by simp only [List.length_append, List.length_nil]; omega, fun R hR => ?_, .inl rfl⟩
        rw [List.append_assoc, List.append_assoc, hcm, line_drop h2 (hR rfl)]
        rfl
      · refine ⟨'\n' :: w3, by simp only [List.length_append, List.length_cons]; omega, fun R _ => ?_, .inr h2⟩
        rw [List.append_assoc, List.append_assoc, hcm, List.append_assoc, line_drop h1 (.inr rfl)]
    by_cases h1 : c = '#'
    · subst h1
      simp only [if_true] at h
      exact hline c!"#" t (fun w => comment_hash hb) (by simp) h
    · rw [if_neg h1] at h
      by_cases h2 : c = '/'
      · subst h2
        simp only [if_true] at h
        cases t with
        | nil =>
          simp only [Reader.read, Option.some.injEq] at h
          subst h
          rcases hρ with h | h | h <;> cases h
        | cons d t =>
          rw [read_cons] at h
          by_cases h3 : d = '/'
          · subst h3
            simp only [Reader.step, if_true] at h
            exact hline c!"//" t (fun w => comment_slashes hb) (by simp) h
          · by_cases h4 : d = '*'
            · subst h4
              simp only [Reader.step, h3, if_false, if_true] at h
              rcases block_read h with rfl | rfl | ⟨w3, e1, e2, e3⟩
              · rcases hρ with h | h | h <;> cases h
              · rcases hρ with h | h | h <;> cases h
              · refine ⟨w3, by simp only [List.length_append, List.length_cons]; omega, fun R _ => ?_, ?_⟩
                · rw [List.append_assoc, List.cons_append, List.cons_append, comment_block hb, e1 R]
                · cases w3 with
                  | nil => exact .inl rfl
                  | cons x w3 => right; rw [← closed_read_cons]; exact e2
            · simp only [Reader.step, h3, h4, if_false] at h
              cases h
      · rw [if_neg h2] at h
        cases h

/-- Comments one after another, before `R`. -/
theorem gap_induct {R : Str} {motive : Str → Prop} (hblank : ∀ w, w.all isWs = true → motive w)
    (hstep : ∀ w w3, comment (w ++ R) = some (w3 ++ R) → motive w3 → motive w) {w : Str} {ρ : Reader}
    (h : Reader.out.read w = some ρ) (hρ : ρ = .out ∨ ρ = .closed ∨ ρ = .line) (hR : LineEnd ρ R) :
    motive w := by
  induction hn : w.length using Nat.strongRecOn generalizing w with
  | ind n ih =>
    rcases gap_cases h hρ with ⟨h1, -⟩ | ⟨w3, hl, hc, h3⟩
    · exact hblank w h1
    · refine hstep w w3 (hc R hR) ?_
      rcases h3 with rfl | h3
      · exact hblank [] rfl
      · exact ih w3.length (by omega) h3 rfl

/-- Skipping white space and comments. -/
theorem skip_gap {w R : Str} {ρ : Reader} (h : Reader.out.read w = some ρ)
    (hρ : ρ = .out ∨ ρ = .closed ∨ ρ = .line) (hR : LineEnd ρ R) :
    ∃ b, b.all isWs = true ∧ skip (w ++ R) = skip (b ++ R) :=
  gap_induct (motive := fun w => ∃ b, b.all isWs = true ∧ skip (w ++ R) = skip (b ++ R))
    (fun w hw => ⟨w, hw, rfl⟩)
    (fun w w3 hc h => by obtain ⟨b, hb, he⟩ := h; exact ⟨b, hb, by rw [skip_comment hc, he]⟩) h hρ hR

/-- Skipping comments. -/
theorem skip_note {w R : Str} {ρ : Reader} (h : Reader.out.read w = some ρ)
    (hρ : ρ = .closed ∨ ρ = .line) (hR : LineEnd ρ R) : skip (w ++ R) = skip R := by
  induction hn : w.length using Nat.strongRecOn generalizing w with
  | ind n ih =>
    rcases gap_cases h (by rcases hρ with h | h <;> simp [h]) with ⟨-, h1⟩ | ⟨w3, hl, hc, h3⟩
    · subst h1; rcases hρ with h | h <;> cases h
    · rw [skip_comment (hc R hR)]
      rcases h3 with rfl | h3
      · rfl
      · exact ih w3.length (by omega) h3 rfl

theorem optWs_gap {w R : Str} (h : Spec.gap w = true) (hR : comment R = none)
    (hh : R.head?.any isWs = false) : optWs (w ++ R) = R := by
  unfold optWs
  simp only [Spec.gap, Bool.or_eq_true, beq_iff_eq] at h
  obtain ⟨b, hb, he⟩ : ∃ b, b.all isWs = true ∧ skip (w ++ R) = skip (b ++ R) := by
    rcases h with h | h
    · exact skip_gap h (.inl rfl) (by rintro ⟨⟩)
    · exact skip_gap h (.inr (.inl rfl)) (by rintro ⟨⟩)
  rw [he, skip_none (by rw [comment_blank hb, hR]), dropWhile_all_append hb, dropWhile_head_any hh]

theorem optWs_of_skip {s u : Str} (h : skip s = u) (hu : u.head?.any isWs = false) : optWs s = u := by
  unfold optWs
  rw [h, dropWhile_head_any hu]

end Verif
