import Verif.Proofs.ParserRead
import Verif.Proofs.ParserTotal
/-! # Plain text and comments, for any parser configuration -/

namespace Verif
open Spec (blank)

theorem startsWith_eq (s t : Str) : startsWith s t = t.isPrefixOf s := rfl

theorem tok_skip_fail {t s : Str} (h : t.isPrefixOf (skip s) = false) : tok t s = .fail := by
  unfold tok
  rw [startsWith_eq, h]
  rfl

/-- Where no other part begins there is a literal or nothing. -/
theorem chunk_literal {cfg : ParserCfg} {vp pv : Str → P Cmd} {s : Str}
    (h1 : cfg.variantStart.isPrefixOf (skip s) = false) (h2 : cfg.variableStart.isPrefixOf (skip s) = false)
    (h3 : cfg.wrapStart.isPrefixOf (skip s) = false) (h4 : cfg.wildcardWrap.isPrefixOf (skip s) = false) :
    chunk cfg vp pv s = literal cfg.wildcardWrap cfg.special s := by
  unfold chunk variableAccess variableAssignment accessTok wrapCommand variantsTok wildcardTok
  rw [tok_skip_fail h1, tok_skip_fail h2, tok_skip_fail h3, tok_skip_fail h4]
  simp only [P.fail_bind, P.fail_or]

/-- Text that is not blank and does not begin a comment. -/
theorem comment_text {t u : Str} (hb : t.all isWs = false) (h0 : '#' ∉ t)
    (h1 : c!"//".isPrefixOf (t.dropWhile isWs) = false) (h2 : c!"/*".isPrefixOf (t.dropWhile isWs) = false)
    (hu : u = [] ∨ u.head? = some '#') : comment (t ++ u) = none := by
  have hne : t.dropWhile isWs ≠ [] := by
    intro e
    have := List.takeWhile_append_dropWhile (p := isWs) (l := t)
    rw [e, List.append_nil] at this
    rw [Bool.eq_false_iff, ne_eq, List.all_eq_true] at hb
    rw [← this] at hb
    exact hb fun x hx => (List.all_eq_true.1 (List.all_takeWhile (p := isWs) (l := t))) x hx
  obtain ⟨c, r, hcr⟩ := List.exists_cons_of_ne_nil hne
  have hmem : c ∈ t := by
    have : t.dropWhile isWs <:+ t := List.dropWhile_suffix _
    exact this.subset (by rw [hcr]; exact List.mem_cons_self)
  have hext : ∀ d : Char, d ≠ '#' → ['/', d].isPrefixOf (t.dropWhile isWs) = false →
      ['/', d].isPrefixOf (c :: (r ++ u)) = false := by
    intro d hd h
    rw [hcr] at h
    cases r with
    | cons x r => simpa [List.isPrefixOf] using h
    | nil =>
      rcases hu with rfl | hu
      · simp [List.isPrefixOf]
      · cases u with
        | nil => simp at hu
        | cons y u =>
          simp only [List.head?_cons, Option.some.injEq] at hu
          subst hu
          simp [List.isPrefixOf, hd]
  refine comment_none_head (c := c) (r := r ++ u) ?_ ?_ (hext '/' (by decide) h1) (hext '*' (by decide) h2)
  · rw [dropWhile_append_some u hb, hcr]; rfl
  · rintro rfl; exact h0 hmem

theorem litRun_text {wrap : Str} {ex : Char → Bool} {u : Str} (hu : u = [] ∨ u.head?.any ex = true)
    (hw : ∀ v : Str, wrap.isPrefixOf (v ++ u) = true → wrap.isPrefixOf v = true) : ∀ {t : Str},
    t.all (fun c => !ex c) = true → hasSub wrap t = false → litRun wrap ex (t ++ u) = (t, u)
  | [], _, _ => by
    cases u with
    | nil => rfl
    | cons c u =>
      rcases hu with hu | hu
      · cases hu
      · simp only [List.head?_cons, Option.any_some] at hu
        show litRun wrap ex (c :: u) = _
        unfold litRun
        rw [if_pos (by simp [hu])]
  | c :: t, h1, h2 => by
    simp only [List.all_cons, Bool.and_eq_true, Bool.not_eq_true'] at h1
    simp only [hasSub, Bool.or_eq_false_iff] at h2
    have ih : litRun wrap ex (t ++ u) = (t, u) := litRun_text hu hw h1.2 h2.2
    have h3 : wrap.isPrefixOf (c :: (t ++ u)) = false := by
      rw [Bool.eq_false_iff]
      intro h
      have h4 : wrap.isPrefixOf (c :: t) = true := hw (c :: t) h
      have h5 := h2.1
      rw [h4] at h5
      cases h5
    rw [List.cons_append]
    unfold litRun
    rw [startsWith_eq, h3, h1.1, ih]
    rfl

/-- A comment up to the end of the line, and the text after it. -/
def lineComments : List (Str × Str) → Str
  | [] => []
  | (c, t) :: xs => '#' :: (c ++ (t ++ lineComments xs))

theorem comment_line {c u : Str} (hc : '\n' ∉ c) (hu : u = [] ∨ u.head? = some '\n') :
    comment ('#' :: (c ++ u)) = some u := by
  have h : (c ++ u).dropWhile (· ≠ '\n') = u := by
    induction c with
    | nil =>
      rcases hu with rfl | hu
      · rfl
      · cases u with
        | nil => rfl
        | cons d u => simp only [List.head?_cons, Option.some.injEq] at hu; subst hu; rfl
    | cons d c ih =>
      simp only [List.mem_cons, not_or] at hc
      have : decide (d ≠ '\n') = true := decide_eq_true (Ne.symm hc.1)
      rw [List.cons_append, List.dropWhile_cons, this, if_pos rfl]
      exact ih hc.2
  show some ((c ++ u).dropWhile (· ≠ '\n')) = _
  rw [h]

theorem isPrefixOf_nil_ne {t : Str} (h : t ≠ []) : t.isPrefixOf [] = false := by
  cases t with
  | nil => contradiction
  | cons a t => rfl

/-- Text that the parser reads as one piece of a literal. -/
structure Plain (cfg : ParserCfg) (t : Str) : Prop where
  ne : t ≠ []
  special : t.all (fun c => !cfg.special c) = true
  wrap : hasSub cfg.wildcardWrap t = false
  line : c!"//".isPrefixOf (t.dropWhile isWs) = false
  block : c!"/*".isPrefixOf (t.dropWhile isWs) = false

theorem Plain.hash {cfg : ParserCfg} {t : Str} (h : Plain cfg t) : '#' ∉ t := by
  intro hm
  have := List.all_eq_true.1 h.special _ hm
  simp [ParserCfg.special] at this

/-- The text after a comment is on the next line and is not blank. -/
structure PlainLine (cfg : ParserCfg) (t : Str) : Prop extends Plain cfg t where
  start : t.head? = some '\n'
  notBlank : t.all isWs = false

/-- `e` is the end of the template: nothing, or a comment. -/
def TextEnd (e : Str) : Prop := e = [] ∨ ∃ c, '\n' ∉ c ∧ e = '#' :: c

theorem TextEnd.skip {e : Str} (h : TextEnd e) : skip e = [] := by
  rcases h with rfl | ⟨c, hc, rfl⟩
  · rfl
  · have := comment_line hc (.inl rfl)
    rw [List.append_nil] at this
    show skipN (c.length + 1) _ = _
    unfold skipN
    rw [this]
    dsimp only
    cases c.length <;> rfl

theorem litPieces_end {cfg : ParserCfg} {e : Str} (h : TextEnd e) (n : Nat) :
    litPieces cfg.wildcardWrap cfg.special n e = ([], e) := by
  cases n with
  | zero => rfl
  | succ n => unfold litPieces; rw [h.skip]; rfl

theorem lineComments_head (xs : List (Str × Str)) {e : Str} (he : TextEnd e) :
    lineComments xs ++ e = [] ∨ (lineComments xs ++ e).head? = some '#' := by
  cases xs with
  | nil =>
    rcases he with rfl | ⟨c, -, rfl⟩
    · exact .inl rfl
    · exact .inr rfl
  | cons x xs => exact .inr rfl

theorem prefix_hash {wrap u : Str} (hw : '#' ∉ wrap) (hu : u = [] ∨ u.head? = some '#') (v : Str)
    (h : wrap.isPrefixOf (v ++ u) = true) : wrap.isPrefixOf v = true := by
  induction v generalizing wrap with
  | nil =>
    cases wrap with
    | nil => rfl
    | cons a wrap =>
      cases u with
      | nil => exact h
      | cons b u =>
        simp only [reduceCtorEq, List.head?_cons, Option.some.injEq, false_or] at hu
        subst hu
        simp only [List.nil_append, List.isPrefixOf, Bool.and_eq_true, beq_iff_eq] at h
        exact absurd (by rw [h.1]; exact List.mem_cons_self) hw
  | cons a v ih =>
    cases wrap with
    | nil => rfl
    | cons b wrap =>
      simp only [List.cons_append, List.isPrefixOf, Bool.and_eq_true] at h ⊢
      exact ⟨h.1, ih (by simp only [List.mem_cons, not_or] at hw; exact hw.2) h.2⟩

theorem litPieces_text {cfg : ParserCfg} (hw : '#' ∉ cfg.wildcardWrap) {e : Str} (he : TextEnd e) :
    ∀ (xs : List (Str × Str)) (s t : Str) (n : Nat), (∀ x ∈ xs, '\n' ∉ x.1 ∧ PlainLine cfg x.2) →
      Plain cfg t → skip s = t ++ (lineComments xs ++ e) → xs.length < n →
      litPieces cfg.wildcardWrap cfg.special n s = (t :: xs.map (·.2), e)
  | xs, s, t, 0, _, _, _, hn => absurd hn (Nat.not_lt_zero _)
  | xs, s, t, n + 1, hx, ht, hs, hn => by
    have hu := lineComments_head xs he
    have hrun : litRun cfg.wildcardWrap cfg.special (t ++ (lineComments xs ++ e)) =
        (t, lineComments xs ++ e) := by
      refine litRun_text (hu.imp id ?_) (prefix_hash hw hu) ht.special ht.wrap
      intro h
      rw [h]
      simp [ParserCfg.special]
    unfold litPieces
    rw [hs, hrun]
    dsimp only
    rw [if_neg (by simpa using ht.ne)]
    cases xs with
    | nil =>
      have : lineComments [] ++ e = e := rfl
      rw [this, litPieces_end he]
      rfl
    | cons x xs =>
      obtain ⟨c, t'⟩ := x
      obtain ⟨hc, ht'⟩ := hx (c, t') List.mem_cons_self
      have hcm : comment (lineComments ((c, t') :: xs) ++ e) = some (t' ++ (lineComments xs ++ e)) := by
        have := comment_line (u := t' ++ (lineComments xs ++ e)) hc (.inr (by
          have := ht'.start
          cases t' with
          | nil => simp at this
          | cons a t' => simpa using this))
        rw [lineComments]
        simp only [List.cons_append, List.append_assoc]
        exact this
      have hskip : skip (lineComments ((c, t') :: xs) ++ e) = t' ++ (lineComments xs ++ e) := by
        obtain ⟨k, hk⟩ : ∃ k, (lineComments ((c, t') :: xs) ++ e).length = k + 1 := ⟨_, rfl⟩
        unfold skip
        rw [hk]
        unfold skipN
        rw [hcm]
        dsimp only
        have hnone := comment_text (u := lineComments xs ++ e) ht'.notBlank ht'.hash ht'.line ht'.block
          (lineComments_head xs he)
        cases k with
        | zero => rfl
        | succ k => unfold skipN; rw [hnone]
      rw [litPieces_text hw he xs _ t' n (fun x hx' => hx x (List.mem_cons_of_mem _ hx')) ht'.toPlain hskip
        (by simpa using hn)]
      rfl

theorem not_prefix_special {cfg : ParserCfg} {w t u : Str} (hw : w ≠ []) (hws : ∀ c ∈ w, cfg.special c = true)
    (ht : t ≠ []) (hts : t.all (fun c => !cfg.special c) = true) : w.isPrefixOf (t ++ u) = false := by
  obtain ⟨a, w', rfl⟩ := List.exists_cons_of_ne_nil hw
  obtain ⟨b, t', rfl⟩ := List.exists_cons_of_ne_nil ht
  have h1 := hws a List.mem_cons_self
  have h2 : cfg.special b = false := by
    have := List.all_eq_true.1 hts b List.mem_cons_self
    simpa using this
  rw [List.cons_append, List.isPrefixOf, Bool.and_eq_false_iff]
  left
  rw [beq_eq_false_iff_ne]
  rintro rfl
  rw [h1] at h2
  cases h2

theorem mem_special {cfg : ParserCfg} {c : Char}
    (h : c ∈ cfg.variantStart ∨ c ∈ cfg.variableStart ∨ c ∈ cfg.wrapStart) : cfg.special c = true := by
  unfold ParserCfg.special
  rw [List.contains_iff_mem]
  rcases h with h | h | h <;> simp [h]

theorem pyJoin_ne_nil {sep x : Str} {xs : List Str} (hx : x ≠ []) : pyJoin sep (x :: xs) ≠ [] := by
  cases xs <;> simp [pyJoin, hx]

/-- Text with comments at the ends of lines is one literal: its pieces joined by spaces. -/
theorem parse_commented {cfg : ParserCfg} (hc : cfg.Usable) (hw : '#' ∉ cfg.wildcardWrap) {e : Str}
    (he : TextEnd e) (xs : List (Str × Str)) (s t : Str)
    (hx : ∀ x ∈ xs, '\n' ∉ x.1 ∧ PlainLine cfg x.2) (ht : Plain cfg t)
    (hs : skip s = t ++ (lineComments xs ++ e)) (hal : s.all cfg.isAlnum = true → xs = [] ∧ t = s)
    (hnone : comment (t ++ (lineComments xs ++ e)) = none) (htab : '\t' ∉ s) :
    parse cfg s = .ok (.lit (pyJoin [' '] (t :: xs.map (·.2))) none) := by
  have hl2 : xs.length < (skip s).length := by
    rw [hs]
    have h2 : xs.length ≤ (lineComments xs).length := by
      clear hx hs hal hnone
      induction xs with
      | nil => exact Nat.zero_le _
      | cons x xs ih => rw [lineComments]; simp only [List.length_cons, List.length_append]; omega
    have h3 := List.length_pos_iff.2 ht.ne
    simp only [List.length_append]
    omega
  have hlen : xs.length < s.length := Nat.lt_of_lt_of_le hl2 (skip_length s)
  have hsne : s ≠ [] := by rintro rfl; simp at hlen
  unfold parse parseAt
  rw [expandTabs_of_not_mem 0 s htab]
  show Option.getD (match parseTok cfg _ _ s with
    | .ok c _ => _ | .fail => _ | .err e => _ | .fuel => _) _ = _
  unfold parseTok
  by_cases ha : s.all cfg.isAlnum = true
  · obtain ⟨rfl, rfl⟩ := hal ha
    rw [if_pos (by rw [ha]; simp [hsne])]
    rfl
  · rw [if_neg (by simp [ha])]
    generalize (parsers cfg s.length).1 = vp
    generalize (parsers cfg s.length).2 = pv
    have hk : chunk cfg vp pv (skip s) = .ok (.lit (pyJoin [' '] (t :: xs.map (·.2))) none) e := by
      have hss : skip (skip s) = t ++ (lineComments xs ++ e) := by
        rw [hs, skip_none hnone]
      have h0 : ∀ w : Str, w ≠ [] → (∀ c ∈ w, cfg.special c = true) →
          w.isPrefixOf (skip (skip s)) = false := by
        intro w hw1 hw2
        rw [hss]
        exact not_prefix_special hw1 hw2 ht.ne ht.special
      rw [chunk_literal (h0 _ hc.variantNe fun c h => mem_special (.inl h))
        (h0 _ hc.variableNe fun c h => mem_special (.inr (.inl h)))
        (h0 _ hc.wrapNe fun c h => mem_special (.inr (.inr h)))
        (by
          rw [hss, Bool.eq_false_iff]
          intro h
          have h := prefix_hash hw (lineComments_head xs he) t h
          have := ht.wrap
          obtain ⟨b, t', rfl⟩ := List.exists_cons_of_ne_nil ht.ne
          rw [hasSub, h] at this
          cases this)]
      unfold literal
      dsimp only
      rw [litPieces_text hw he xs _ t _ hx ht hss hl2]
      rfl
    have hend : chunk cfg vp pv e = .fail := by
      rw [chunk_literal, literal, litPieces_end he]
      · rfl
      all_goals
        rw [he.skip]
        first
          | exact isPrefixOf_nil_ne hc.variantNe
          | exact isPrefixOf_nil_ne hc.variableNe
          | exact isPrefixOf_nil_ne hc.wrapNe
          | exact isPrefixOf_nil_ne hc.wildcardNe
    unfold promptTok
    obtain ⟨k, hk'⟩ : ∃ k, s.length + 1 = k + 1 + 1 := by
      obtain ⟨a, s', rfl⟩ := List.exists_cons_of_ne_nil hsne
      exact ⟨s'.length, rfl⟩
    rw [hk']
    simp only [many, hk, hend, Bool.false_eq_true, if_false, P.ok_bind]
    rw [if_pos]
    · rfl
    · unfold optWs
      rw [he.skip]
      rfl

end Verif
