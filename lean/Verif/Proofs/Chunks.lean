import Verif.Model.Generators
import Verif.Proofs.Text
import Verif.Proofs.Files
/-!
# Splitting a prompt into keywords

`re.split` with white space around the separators, compared with splitting at every separator.
-/

namespace Verif
open Spec

theorem rstripP_cons {p : Char → Bool} {c : Char} {g : Str} (h : p c = false ∨ ∃ d ∈ g, p d = false) :
    rstripP p (c :: g) = c :: rstripP p g := by
  unfold rstripP
  rw [List.reverse_cons]
  by_cases hg : ∃ d ∈ g, p d = false
  · obtain ⟨d, hd, hp⟩ := hg
    have key : ∀ l : Str, d ∈ l → (l ++ [c]).dropWhile p = l.dropWhile p ++ [c] := by
      intro l
      induction l with
      | nil => simp
      | cons x l ih =>
        intro hm
        by_cases hx : p x = true
        · rcases List.mem_cons.1 hm with rfl | hm
          · rw [hp] at hx; cases hx
          · simp [hx, ih hm]
        · simp [hx]
    rw [key _ (List.mem_reverse.2 hd)]
    simp
  · have hall : ∀ d ∈ g.reverse, p d = true := by
      intro d hd
      cases h : p d with
      | true => rfl
      | false => exact absurd ⟨d, List.mem_reverse.1 hd, h⟩ hg
    have hc : p c = false := h.resolve_right hg
    have key : ∀ l : Str, (∀ d ∈ l, p d = true) → (l ++ [c]).dropWhile p = [c] ∧ l.dropWhile p = [] := by
      intro l
      induction l with
      | nil => simp [hc]
      | cons x l ih => intro hm; simp [hm x (by simp), ih fun d hd => hm d (by simp [hd])]
    rw [(key _ hall).1, (key _ hall).2]
    rfl

theorem rstripP_blank {p : Char → Bool} {g : Str} (h : ∀ c ∈ g, p c = true) : rstripP p g = [] := by
  unfold rstripP
  have key : ∀ l : Str, (∀ d ∈ l, p d = true) → l.dropWhile p = [] := by
    intro l
    induction l with
    | nil => simp
    | cons x l ih => intro hm; simp [hm x (by simp), ih fun d hd => hm d (by simp [hd])]
  rw [key _ fun d hd => h d (List.mem_reverse.1 hd)]
  rfl

theorem stripP_blank_before {p : Char → Bool} {a g : Str} (h : ∀ c ∈ a, p c = true) : stripP p (a ++ g) = stripP p g := by
  unfold stripP lstripP
  congr 1
  induction a with
  | nil => rfl
  | cons x a ih => simp [h x (by simp), ih fun c hc => h c (by simp [hc])]

theorem rstripP_blank_after {p : Char → Bool} {a g : Str} (h : ∀ c ∈ a, p c = true) : rstripP p (g ++ a) = rstripP p g := by
  unfold rstripP
  rw [List.reverse_append]
  congr 1
  have key : ∀ l m : Str, (∀ d ∈ l, p d = true) → (l ++ m).dropWhile p = m.dropWhile p := by
    intro l m
    induction l with
    | nil => simp
    | cons x l ih => intro hm; simp [hm x (by simp), ih fun d hd => hm d (by simp [hd])]
  exact key _ _ fun d hd => h d (List.mem_reverse.1 hd)

theorem stripP_blank_after {p : Char → Bool} {a g : Str} (h : ∀ c ∈ a, p c = true) : stripP p (g ++ a) = stripP p g := by
  unfold stripP lstripP
  by_cases hg : ∃ d ∈ g, p d = false
  · have : (g ++ a).dropWhile p = g.dropWhile p ++ a := by
      obtain ⟨d, hd, hp⟩ := hg
      induction g with
      | nil => cases hd
      | cons x g ih =>
        by_cases hx : p x = true
        · rcases List.mem_cons.1 hd with rfl | hd
          · rw [hp] at hx; cases hx
          · simp [hx, ih hd]
        · simp [hx]
    rw [this, rstripP_blank_after h]
  · have hall : ∀ d ∈ g, p d = true := by
      intro d hd
      cases h : p d with
      | true => rfl
      | false => exact absurd ⟨d, hd, h⟩ hg
    rw [rstripP_blank, rstripP_blank]
    · exact fun c hc => hall c (List.dropWhile_subset _ hc)
    · intro c hc
      rcases List.mem_append.1 (List.dropWhile_subset _ hc) with hc | hc
      · exact hall c hc
      · exact h c hc

theorem takeWhile_holds_all {p : Char → Bool} (s : Str) : ∀ c ∈ s.takeWhile p, p c = true := by
  induction s with
  | nil => simp
  | cons x s ih =>
    intro c hc
    by_cases hx : p x = true
    · rw [List.takeWhile_cons_of_pos hx] at hc
      rcases List.mem_cons.1 hc with rfl | hc
      · exact hx
      · exact ih c hc
    · rw [List.takeWhile_cons_of_neg hx] at hc
      cases hc

theorem takeWhile_rest {p : Char → Bool} (s : Str) : s = s.takeWhile p ++ s.drop (s.takeWhile p).length ∧
    ∀ c, (s.drop (s.takeWhile p).length).head? = some c → p c = false := by
  induction s with
  | nil => simp
  | cons x s ih =>
    by_cases hx : p x = true
    · rw [List.takeWhile_cons_of_pos hx]
      simp only [List.length_cons, List.drop_succ_cons, List.cons_append, List.cons.injEq, true_and]
      exact ih
    · rw [List.takeWhile_cons_of_neg hx]
      simpa using hx

/-- A match: white space, separators, white space, and then something that is neither. -/
theorem mChunkSep_some {s : Str} {k : Nat} (h : mChunkSep s = some k) :
    ∃ sp seps sp' rest, s = sp ++ seps ++ sp' ++ rest ∧ k = (sp ++ seps ++ sp').length ∧ seps ≠ [] ∧
      (∀ c ∈ sp, isSpace c = true) ∧ (∀ c ∈ seps, isChunkSep c = true) ∧ (∀ c ∈ sp', isSpace c = true) ∧
      ∀ c, rest.head? = some c → isSpace c = false := by
  unfold mChunkSep at h
  dsimp only at h
  obtain ⟨e1, f1⟩ := takeWhile_rest (p := isSpace) s
  generalize hs1 : s.drop (s.takeWhile isSpace).length = s1 at *
  obtain ⟨e2, f2⟩ := takeWhile_rest (p := isChunkSep) s1
  generalize hs2 : s1.drop (s1.takeWhile isChunkSep).length = s2 at *
  obtain ⟨e3, f3⟩ := takeWhile_rest (p := isSpace) s2
  split at h
  · cases h
  · rename_i hj
    cases h
    refine ⟨_, _, _, _, ?_, ?_, ?_, takeWhile_holds_all s, takeWhile_holds_all s1, takeWhile_holds_all s2, f3⟩
    · rw [List.append_assoc, List.append_assoc, ← e3, ← e2, ← e1]
    · simp
      omega
    · intro e
      exact hj (by rw [e]; rfl)

theorem mChunkSep_none {s : Str} (h : mChunkSep s = none) :
    ∃ sp rest, s = sp ++ rest ∧ (∀ c ∈ sp, isSpace c = true) ∧
      ∀ c, rest.head? = some c → isSpace c = false ∧ isChunkSep c = false := by
  unfold mChunkSep at h
  dsimp only at h
  obtain ⟨e1, f1⟩ := takeWhile_rest (p := isSpace) s
  refine ⟨_, _, e1, takeWhile_holds_all s, fun c hc => ⟨f1 c hc, ?_⟩⟩
  generalize s.drop (s.takeWhile isSpace).length = s1 at *
  split at h
  · rename_i hj
    cases s1 with
    | nil => cases hc
    | cons d s1 =>
      cases hc
      cases hd : isChunkSep c with
      | false => rfl
      | true => simp [hd] at hj
  · cases h

theorem splitAt1_seps {p : Char → Bool} {seps s : Str} (h : ∀ c ∈ seps, p c = true) :
    splitAt1 p (seps ++ s) = List.replicate seps.length [] ++ splitAt1 p s := by
  induction seps with
  | nil => rfl
  | cons c cs ih =>
    rw [List.cons_append, splitAt1, if_pos (h c (by simp)), ih fun d hd => h d (by simp [hd])]
    rfl

theorem splitAt1_first {p : Char → Bool} (s : Str) : ∃ g gs b, splitAt1 p s = g :: gs ∧ s = g ++ b := by
  induction s with
  | nil => exact ⟨[], [], [], rfl, rfl⟩
  | cons c cs ih =>
    obtain ⟨g, gs, b, h1, h2⟩ := ih
    by_cases hc : p c = true
    · exact ⟨[], g :: gs, c :: cs, by simp [splitAt1, hc, h1], rfl⟩
    · exact ⟨c :: g, gs, b, by simp [splitAt1, hc, h1, consHead], by simp [h2]⟩

/-- The fields of `re.split`, compared with the parts between the separators. -/
theorem reSplit_fields (isDigit : Char → Bool) {n : Nat} {s : Str} (hn : s.length ≤ n)
    (hl : ∀ c, s.getLast? = some c → isSpace c = false) :
    ∃ hs g gs, reSplitN mChunkSep n s = rstripP isSpace g :: hs ∧ splitAt1 isChunkSep s = g :: gs ∧
      hs.filter (validChunk isDigit) = (gs.map strip).filter (validChunk isDigit) := by
  have hv : validChunk isDigit [] = false := by simp [validChunk]
  have sepsp : ∀ c, isSpace c = true → isChunkSep c = false := by
    intro c hc
    cases h : isChunkSep c with
    | false => rfl
    | true =>
      simp only [isChunkSep, Bool.or_eq_true, beq_iff_eq] at h
      rcases h with ((((((rfl | rfl) | rfl) | rfl) | rfl) | rfl) | rfl) | rfl <;> exact absurd hc (by decide)
  induction n generalizing s with
  | zero =>
    obtain rfl := List.length_eq_zero_iff.1 (by omega : s.length = 0)
    exact ⟨[], [], [], rfl, rfl, rfl⟩
  | succ n ih =>
    cases s with
    | nil => exact ⟨[], [], [], rfl, rfl, rfl⟩
    | cons c cs =>
      simp only [List.length_cons] at hn
      cases hm : mChunkSep (c :: cs) with
      | some k =>
        obtain ⟨sp, seps, sp', rest, e, hk, hne, h1, h2, h3, h4⟩ := mChunkSep_some hm
        have hpos : 0 < seps.length := List.length_pos_iff.2 hne
        obtain ⟨k, rfl⟩ : ∃ j, k = j + 1 := ⟨k - 1, by rw [hk]; simp; omega⟩
        have hdrop : (c :: cs).drop (k + 1) = rest := by rw [e, hk, List.drop_left]
        have hlen : rest.length ≤ n := by
          rw [← hdrop]
          simp
          omega
        have hlr : ∀ d, rest.getLast? = some d → isSpace d = false := by
          intro d hd
          refine hl d ?_
          rw [e, List.getLast?_append, hd]
          rfl
        obtain ⟨hs, g, gs, q1, q2, q3⟩ := ih hlen hlr
        refine ⟨rstripP isSpace g :: hs, sp, List.replicate (seps.length - 1) [] ++ (sp' ++ g) :: gs, ?_, ?_, ?_⟩
        · simp only [reSplitN, hm]
          rw [hdrop, q1, rstripP_blank h1]
        · rw [e]
          obtain ⟨s0, seps, rfl⟩ : ∃ a b, seps = a :: b := by
            cases seps with
            | nil => exact absurd rfl hne
            | cons a b => exact ⟨a, b, rfl⟩
          have : sp ++ s0 :: seps ++ sp' ++ rest = sp ++ s0 :: (seps ++ (sp' ++ rest)) := by simp
          rw [this, splitAt1_sep _ _ _ _ (fun x hx => sepsp x (h1 x hx)) (h2 s0 (by simp)),
            splitAt1_seps fun d hd => h2 d (by simp [hd]),
            splitAt1_append_no _ _ _ (fun x hx => sepsp x (h3 x hx)), q2]
          simp
        · obtain ⟨g', gs', b, r1, r2⟩ := splitAt1_first (p := isChunkSep) rest
          rw [q2] at r1
          cases r1
          have hst : strip (sp' ++ g) = rstripP isSpace g := by
            unfold strip
            rw [stripP_blank_before h3]
            cases g with
            | nil => rfl
            | cons d g =>
              have : isSpace d = false := h4 d (by rw [r2]; rfl)
              simp [stripP, lstripP, this]
          have hrep : ∀ m : Nat, ((List.replicate m ([] : Str)).map strip).filter (validChunk isDigit) = [] := by
            intro m
            have h0 : strip [] = [] := rfl
            rw [List.map_replicate, h0, List.filter_eq_nil_iff]
            intro x hx
            rw [List.eq_of_mem_replicate hx, hv]
            decide
          rw [List.map_append, List.filter_append, hrep, List.nil_append, List.map_cons, hst]
          simp only [List.filter_cons, q3]
      | none =>
        have hlc : ∀ d, cs.getLast? = some d → isSpace d = false := by
          intro d hd
          refine hl d ?_
          rw [List.getLast?_cons, hd]
          rfl
        obtain ⟨hs, g, gs, q1, q2, q3⟩ := ih (by omega) hlc
        obtain ⟨sp, rest, e, h1, h2⟩ := mChunkSep_none hm
        have hfirst : isChunkSep c = false ∧ (isSpace c = false ∨ ∃ d ∈ g, isSpace d = false) := by
          cases sp with
          | nil =>
            rw [List.nil_append] at e
            have := h2 c (by rw [← e]; rfl)
            exact ⟨this.2, .inl this.1⟩
          | cons x sp =>
            cases e
            refine ⟨sepsp c (h1 c (by simp)), .inr ?_⟩
            cases rest with
            | nil =>
              have hmem : ∀ l : Str, (∀ x ∈ l, isSpace x = true) → l ≠ [] → ∃ d, l.getLast? = some d ∧ isSpace d = true := by
                intro l hl hne
                exact ⟨l.getLast hne, List.getLast?_eq_some_getLast hne, hl _ (List.getLast_mem hne)⟩
              obtain ⟨d, hd1, hd2⟩ := hmem (c :: sp) h1 (by simp)
              rw [hl d (by simpa using hd1)] at hd2
              cases hd2
            | cons d rest =>
              obtain ⟨hd1, hd2⟩ := h2 d rfl
              obtain ⟨x, xs, -, r1, -⟩ := splitAt1_first (p := isChunkSep) rest
              have hall : ∀ y ∈ sp ++ [d], isChunkSep y = false := by
                intro y hy
                rcases List.mem_append.1 hy with hy | hy
                · exact sepsp y (h1 y (by simp [hy]))
                · rw [List.mem_singleton.1 hy]; exact hd2
              have hsplit : splitAt1 isChunkSep (sp ++ d :: rest) = (sp ++ [d] ++ x) :: xs := by
                have := splitAt1_append_no isChunkSep (sp ++ [d]) rest hall
                rw [r1] at this
                simpa using this
              have hg : g :: gs = (sp ++ [d] ++ x) :: xs := q2.symm.trans hsplit
              cases hg
              exact ⟨d, by simp, hd1⟩
        refine ⟨hs, c :: g, gs, ?_, ?_, q3⟩
        · simp only [reSplitN, hm]
          rw [q1, rstripP_cons hfirst.2]
          rfl
        · rw [splitAt1, if_neg (by simp [hfirst.1]), q2]
          rfl

theorem strip_ends (s : Str) : (∀ c, (strip s).head? = some c → isSpace c = false) ∧
    (∀ c, (strip s).getLast? = some c → isSpace c = false) ∧
    ∃ a b, s = a ++ strip s ++ b ∧ (∀ c ∈ a, isSpace c = true) ∧ ∀ c ∈ b, isSpace c = true := by
  have e1 := takeWhile_rest (p := isSpace) s
  have d1 : s.dropWhile isSpace = s.drop (s.takeWhile isSpace).length := by
    have := List.takeWhile_append_dropWhile (p := isSpace) (l := s)
    have h2 := e1.1
    rw [← this] at h2
    conv at h2 => lhs
    exact List.append_cancel_left (by rw [this]; exact e1.1)
  generalize ht : s.drop (s.takeWhile isSpace).length = t at *
  have e2 := takeWhile_rest (p := isSpace) t.reverse
  have d2 : t.reverse.dropWhile isSpace = t.reverse.drop (t.reverse.takeWhile isSpace).length := by
    have := List.takeWhile_append_dropWhile (p := isSpace) (l := t.reverse)
    exact List.append_cancel_left (by rw [this]; exact e2.1)
  have hs : strip s = (t.reverse.dropWhile isSpace).reverse := by
    unfold strip stripP lstripP rstripP
    rw [d1]
  have ht' : t = strip s ++ (t.reverse.takeWhile isSpace).reverse := by
    rw [hs]
    have := congrArg List.reverse (List.takeWhile_append_dropWhile (p := isSpace) (l := t.reverse))
    rw [List.reverse_append, List.reverse_reverse] at this
    exact this.symm
  refine ⟨fun c hc => ?_, fun c hc => ?_, s.takeWhile isSpace, (t.reverse.takeWhile isSpace).reverse, ?_,
    takeWhile_holds_all s, fun c hc => takeWhile_holds_all _ c (List.mem_reverse.1 hc)⟩
  · refine e1.2 c ?_
    rw [ht', List.head?_append, hc]
    rfl
  · rw [hs, List.getLast?_reverse, d2] at hc
    exact e2.2 c hc
  · rw [List.append_assoc, ← ht']
    exact e1.1

/-- The keywords are the parts between separators, stripped, as far as they are valid. -/
theorem cheapChunker_fields (isDigit : Char → Bool) (prompt : Str) :
    cheapChunker isDigit prompt =
      ((splitAt1 isChunkSep (strip prompt)).map strip).filter (validChunk isDigit) := by
  obtain ⟨h1, h2, -⟩ := strip_ends prompt
  unfold cheapChunker
  dsimp only
  obtain ⟨hs, g, gs, q1, q2, q3⟩ := reSplit_fields isDigit (Nat.le_refl _) h2
  rw [q1, q2, List.map_cons]
  have : strip g = rstripP isSpace g := by
    obtain ⟨g', gs', b, r1, r2⟩ := splitAt1_first (p := isChunkSep) (strip prompt)
    rw [q2] at r1
    cases r1
    cases g with
    | nil => rfl
    | cons d g =>
      have : isSpace d = false := h1 d (by rw [r2]; rfl)
      simp [strip, stripP, lstripP, this]
  rw [this]
  simp only [List.filter_cons, q3]

theorem splitAt1_append_end {p : Char → Bool} (m b : Str) (h : ∀ c ∈ b, p c = false) :
    ∃ gs g, splitAt1 p m = gs ++ [g] ∧ splitAt1 p (m ++ b) = gs ++ [g ++ b] := by
  induction m with
  | nil => exact ⟨[], [], rfl, splitAt1_none p b h⟩
  | cons c m ih =>
    obtain ⟨gs, g, h1, h2⟩ := ih
    by_cases hc : p c = true
    · exact ⟨[] :: gs, g, by simp [splitAt1, hc, h1], by simp [splitAt1, hc, h2]⟩
    · cases gs with
      | nil => exact ⟨[], c :: g, by simp [splitAt1, hc, h1, consHead], by simp [splitAt1, hc, h2, consHead]⟩
      | cons x gs => exact ⟨(c :: x) :: gs, g, by simp [splitAt1, hc, h1, consHead], by simp [splitAt1, hc, h2, consHead]⟩

/-- White space around a prompt does not matter. -/
theorem split_strip (s : Str) : (splitAt1 isChunkSep (strip s)).map strip = (splitAt1 isChunkSep s).map strip := by
  obtain ⟨-, -, a, b, e, ha, hb⟩ := strip_ends s
  have sepsp : ∀ c, isSpace c = true → isChunkSep c = false := by
    intro c hc
    cases h : isChunkSep c with
    | false => rfl
    | true =>
      simp only [isChunkSep, Bool.or_eq_true, beq_iff_eq] at h
      rcases h with ((((((rfl | rfl) | rfl) | rfl) | rfl) | rfl) | rfl) | rfl <;> exact absurd hc (by decide)
  conv => rhs; rw [e, List.append_assoc, splitAt1_append_no _ _ _ fun c hc => sepsp c (ha c hc)]
  obtain ⟨gs, g, h1, h2⟩ := splitAt1_append_end (p := isChunkSep) (strip s) b fun c hc => sepsp c (hb c hc)
  have hst : ∀ x : Str, strip (a ++ x) = strip x := fun x => stripP_blank_before ha
  have hst' : ∀ x : Str, strip (x ++ b) = strip x := fun x => stripP_blank_after hb
  rw [h2, h1]
  cases gs with
  | nil => simp [hst, hst']
  | cons x gs => simp [hst, hst']

end Verif
