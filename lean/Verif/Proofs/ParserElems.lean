import Verif.Proofs.ParserTokens
/-! # Literals, bounds, separators and weights -/

namespace Verif
open Spec (blank digit letter natOf digitVal marked)

/-! ## Literals -/

/-- No literal goes on into `u`. -/
def Stops (ww : Str) (ex : Char → Bool) (u : Str) : Prop :=
  u = [] ∨ u.head?.any ex = true ∨ ww.isPrefixOf u = true

/-- The text cannot form a mark with what comes before it and ends with a character of the mark. -/
def Apart (ww t u : Str) : Prop := t.getLast?.any ww.contains = true → u.head?.any ww.contains = false

theorem Apart.tail {ww : Str} {c : Char} {t u : Str} (h : Apart ww (c :: t) u) (ht : t ≠ []) : Apart ww t u := by
  intro hl
  apply h
  cases t with
  | nil => exact absurd rfl ht
  | cons d t => rw [List.getLast?_cons_cons]; exact hl

theorem prefix_apart {w a u : Str} (ha : a ≠ []) (h1 : w.isPrefixOf a = false) (h3 : Apart w a u) :
    w.isPrefixOf (a ++ u) = false := by
  rw [Bool.eq_false_iff] at h1 ⊢
  intro h
  rw [ne_eq, List.isPrefixOf_iff_prefix] at h1
  rw [List.isPrefixOf_iff_prefix] at h
  rcases List.prefix_or_prefix_of_prefix h (List.prefix_append a u) with h2 | ⟨r, rfl⟩
  · exact h1 h2
  · cases r with
    | nil => exact h1 (by simp)
    | cons c r =>
      rw [List.prefix_append_right_inj] at h
      obtain ⟨u', rfl⟩ := h
      have hlast : (a.getLast?).any (a ++ c :: r).contains = true := by
        rw [List.getLast?_eq_some_getLast ha]
        simp [List.getLast_mem ha]
      have := h3 hlast
      simp at this

theorem litRun_stop {ww : Str} {ex : Char → Bool} {u : Str} (h : Stops ww ex u) : litRun ww ex u = ([], u) := by
  cases u with
  | nil => rfl
  | cons c cs =>
    unfold litRun startsWith
    rw [if_pos]
    rcases h with h | h | h
    · cases h
    · simp only [List.head?_cons, Option.any_some] at h; simp [h]
    · simp [h]

theorem litRun_plain {ww : Str} {ex : Char → Bool} {u : Str} (hu : Stops ww ex u) : ∀ {t : Str},
    t.all (fun c => !ex c) = true → hasSub ww t = false → Apart ww t u → litRun ww ex (t ++ u) = (t, u)
  | [], _, _, _ => litRun_stop hu
  | c :: t, h1, h2, h3 => by
    simp only [List.all_cons, Bool.and_eq_true, Bool.not_eq_true'] at h1
    simp only [hasSub, Bool.or_eq_false_iff] at h2
    have ih : litRun ww ex (t ++ u) = (t, u) := by
      by_cases ht : t = []
      · subst ht; exact litRun_stop hu
      · exact litRun_plain hu h1.2 h2.2 (h3.tail ht)
    rw [List.cons_append]
    unfold litRun startsWith
    rw [if_neg, ih]
    rw [h1.1, Bool.false_or, Bool.not_eq_true]
    exact prefix_apart (a := c :: t) (by simp) h2.1 h3

/-- A text, and what comes after it in the same literal. -/
theorem litPieces_text_step {ww : Str} {ex : Char → Bool} {s t u : Str} (hs : skip s = t ++ u) (hu : Stops ww ex u)
    (h0 : t ≠ []) (h1 : t.all (fun c => !ex c) = true) (h2 : hasSub ww t = false)
    (h3 : Apart ww t u) (n : Nat) :
    litPieces ww ex (n + 1) s =
      (t :: (litPieces ww ex n u).1, (litPieces ww ex n u).2) := by
  rw [litPieces]
  rw [hs, litRun_plain hu h1 h2 h3]
  dsimp only
  rw [if_neg (by simpa using h0)]

theorem litPieces_stop {ww : Str} {ex : Char → Bool} {s : Str} (h : Stops ww ex (skip s)) (n : Nat) :
    litPieces ww ex n s = ([], s) := by
  cases n with
  | zero => rfl
  | succ n =>
    unfold litPieces
    rw [litRun_stop h]
    rfl

theorem literal_fail {ww : Str} {ex : Char → Bool} {s : Str} (h : Stops ww ex (skip s)) :
    literal ww ex s = .fail := by
  unfold literal
  dsimp only
  rw [litPieces_stop h]
  rfl

/-! ## What a failed attempt may have read -/

/-- `s'` can be reached from `s` by reading characters of numbers and by skipping comments. -/
inductive Erode : Str → Str → Prop where
  | refl (s : Str) : Erode s s
  | char {c : Char} {s s' : Str} : Spec.weightChar c = true → (c = '+' → s.head? ≠ some '+') → Erode s s' →
      Erode (c :: s) s'
  | note {s r s' : Str} : comment s = some r → Erode r s' → Erode s s'

theorem Erode.trans {a b c : Str} (h : Erode a b) (h' : Erode b c) : Erode a c := by
  induction h with
  | refl => exact h'
  | char hc hp _ ih => exact .char hc hp (ih h')
  | note hc _ ih => exact .note hc (ih h')

theorem Erode.skip (s : Str) : Erode s (skip s) := by
  induction hn : s.length using Nat.strongRecOn generalizing s with
  | ind n ih =>
    cases h : comment s with
    | none => rw [skip_none h]; exact .refl s
    | some r =>
      rw [skip_comment h]
      exact .note h (ih r.length (by rw [← hn]; exact comment_length h) r rfl)

theorem Erode.append {p r : Str} (h : p.all (fun c => Spec.weightChar c && c != '+') = true) :
    Erode (p ++ r) r := by
  induction p with
  | nil => exact .refl r
  | cons c p ih =>
    simp only [List.all_cons, Bool.and_eq_true, bne_iff_ne, ne_eq] at h
    exact .char h.1.1 (fun e => absurd e h.1.2) (ih h.2)

/-- The element fails, or reads only numbers and comments. -/
def Eats {α : Type} (s : Str) (x : P α) : Prop :=
  x = .fail ∨ ∃ a r, Erode s r ∧ x = .ok a r

theorem Eats.bind {α β : Type} {s : Str} {x : P α} {f : α → Str → P β} (h : Eats s x)
    (hf : ∀ a r, Eats r (f a r)) : Eats s (x.bind f) := by
  rcases h with rfl | ⟨a, r, hp, rfl⟩
  · exact .inl rfl
  · rcases hf a r with h | ⟨b, r', hp', h⟩
    · exact .inl h
    · exact .inr ⟨b, r', hp.trans hp', h⟩

theorem Eats.or {α : Type} {s : Str} {x y : P α} (h : Eats s x) (h' : Eats s y) : Eats s (x.or y) := by
  rcases h with rfl | ⟨a, r, hp, rfl⟩
  · exact h'
  · exact .inr ⟨a, r, hp, rfl⟩

theorem Eats.ok {α : Type} {s : Str} {a : α} : Eats s (.ok a s) := .inr ⟨a, s, .refl s, rfl⟩

theorem tok_eats {t s : Str} (ht : t.all (fun c => Spec.weightChar c && c != '+') = true) : Eats s (tok t s) := by
  by_cases h : t.isPrefixOf (skip s) = true
  · rw [List.isPrefixOf_iff_prefix] at h
    obtain ⟨u, h⟩ := h
    exact .inr ⟨(), u, (Erode.skip s).trans (h ▸ .append ht), tok_ok t h.symm⟩
  · exact .inl (tok_fail (Bool.eq_false_iff.2 h))

theorem drop_takeWhile (p : Char → Bool) : ∀ s : Str,
    s.drop (s.takeWhile p).length = s.dropWhile p
  | [] => rfl
  | c :: s => by
    rw [List.takeWhile_cons, List.dropWhile_cons]
    split
    · exact drop_takeWhile p s
    · rfl

theorem num_weightChar {c : Char} (h : isNum c = true) : Spec.weightChar c = true := by
  unfold Spec.weightChar; rw [digit_eq, h]; rfl

theorem takeWhile_weightChar (w : Str) :
    (w.takeWhile isNum).all (fun c => Spec.weightChar c && c != '+') = true := by
  rw [List.all_eq_true]
  intro c hc
  have := List.all_eq_true.1 (List.all_takeWhile (p := isNum)) c hc
  rw [num_weightChar this, Bool.true_and, bne_iff_ne]
  rintro rfl
  revert this
  decide

theorem intTok_eats {s : Str} : Eats s (intTok s) := by
  unfold intTok
  dsimp only
  split
  · exact .inl rfl
  · rw [drop_takeWhile]
    refine .inr ⟨_, _, (Erode.skip s).trans ?_, rfl⟩
    have := Erode.append (r := (skip s).dropWhile isNum) (takeWhile_weightChar (skip s))
    rwa [List.takeWhile_append_dropWhile] at this

theorem realTok_eats {s : Str} : Eats s (realTok s) := by
  have hsplit : ∀ t : Str, ∃ sg u, t = sg ++ u ∧ (sg = [] ∨ sg = ['-'] ∨ sg = ['+']) ∧
      (if t.head? == some '-' || t.head? == some '+' then t.drop 1 else t) = u := by
    intro t
    cases t with
    | nil => exact ⟨[], [], rfl, .inl rfl, rfl⟩
    | cons c t =>
      by_cases h1 : c = '-'
      · subst h1; exact ⟨['-'], t, rfl, .inr (.inl rfl), rfl⟩
      · by_cases h2 : c = '+'
        · subst h2; exact ⟨['+'], t, rfl, .inr (.inr rfl), rfl⟩
        · exact ⟨[], c :: t, rfl, .inl rfl, by simp [h1, h2]⟩
  unfold realTok
  obtain ⟨sg, u, hs, hsg, hu⟩ := hsplit (skip s)
  dsimp only
  rw [hu]
  rw [drop_takeWhile]
  split
  · rename_i v hv
    split
    · exact .inl rfl
    · rw [drop_takeWhile]
      refine .inr ⟨_, _, (Erode.skip s).trans ?_, rfl⟩
      have h := Erode.append (p := u.takeWhile isNum ++ ('.' :: v.takeWhile isNum))
        (r := v.dropWhile isNum) (by
          rw [List.all_append, List.all_cons, takeWhile_weightChar, takeWhile_weightChar]
          decide)
      have hp : u.head? ≠ some '+' := by
        intro e
        cases u with
        | nil => cases e
        | cons c u =>
          cases e
          rw [List.dropWhile_cons, if_neg (by decide)] at hv
          cases hv
      rw [List.append_assoc, List.cons_append, List.takeWhile_append_dropWhile,
          ← hv, List.takeWhile_append_dropWhile] at h
      rw [hs]
      rcases hsg with rfl | rfl | rfl
      · exact h
      · exact .char (by decide) (fun e => absurd e (by decide)) h
      · exact .char (by decide) (fun _ => hp) h
  · exact .inl rfl

/-! ## Bounds and separators -/

/-- A bound as the parser represents it. -/
def toSpec : Spec.Bound → BoundSpec
  | .exact n => .exact (natOf n)
  | .between lo hi => .between (natOf lo) (natOf hi)
  | .upTo hi => .upTo (natOf hi)
  | .atLeast lo => .atLeast (natOf lo)

theorem numeral_iff {ds : Str} : Spec.numeral ds = true ↔ ds.all isNum = true ∧ ds ≠ [] := by
  unfold Spec.numeral
  rw [digit_eq]
  simp

theorem num_head {ds u : Str} (h : ds.all isNum = true) (hne : ds ≠ []) (p : Char → Bool)
    (hp : ∀ c, isNum c = true → p c = false) : (ds ++ u).head?.any p = false := by
  cases ds with
  | nil => contradiction
  | cons d ds =>
    simp only [List.all_cons, Bool.and_eq_true] at h
    simp [hp d h.1]

theorem isPrefixOf_head {t s : Str} (h : ∀ c ∈ t.head?, s.head? ≠ some c) (ht : t ≠ []) :
    t.isPrefixOf s = false := by
  cases t with
  | nil => contradiction
  | cons c t =>
    cases s with
    | nil => rfl
    | cons d s =>
      have := h c rfl
      simp only [List.head?_cons, ne_eq, Option.some.injEq] at this
      simp [List.isPrefixOf, Ne.symm this]

theorem num_prefix {ds u : Str} (h : ds.all isNum = true) (hne : ds ≠ []) (c : Char) (t : Str)
    (hc : isNum c = false) : (c :: t).isPrefixOf (ds ++ u) = false := by
  cases ds with
  | nil => contradiction
  | cons d ds =>
    simp only [List.all_cons, Bool.and_eq_true] at h
    have : c ≠ d := by rintro rfl; rw [h.1] at hc; cases hc
    simp [List.isPrefixOf, this]

theorem num_solid {ds u : Str} (h : ds.all isNum = true) (hne : ds ≠ []) : Solid (ds ++ u) := by
  refine num_head h hne _ fun c hc => ?_
  rw [Bool.eq_false_iff]
  intro hw
  simp only [isWs, Bool.or_eq_true, beq_iff_eq] at hw
  rcases hw with ((((rfl | rfl) | rfl) | rfl) | rfl) | rfl <;> revert hc <;> decide

theorem boundRangeTok_ok {b : Spec.Bound} {s u : Str} (hb : b.ok = true)
    (hs : skip s = b.source ++ (c!"$$" ++ u)) : boundRangeTok s = .ok (toSpec b) (c!"$$" ++ u) := by
  have hd : (c!"$$" ++ u).head?.any isNum = false := by rfl
  have hsd : skip (c!"$$" ++ u) = c!"$$" ++ u := Solid.skip rfl
  unfold boundRangeTok
  cases b with
  | exact n =>
    obtain ⟨h1, h2⟩ := numeral_iff.1 hb
    change skip s = n ++ (c!"$$" ++ u) at hs
    rw [intTok_ok hs h1 h2 hd, tok_fail (s := s) (by rw [hs]; exact num_prefix h1 h2 '-' [] (by decide))]
    simp only [P.bind, P.or, tok_fail (t := c!"-") (s := c!"$$" ++ u) (by rw [hsd]; rfl)]
    rfl
  | between lo hi =>
    simp only [Spec.Bound.ok, Bool.and_eq_true] at hb
    obtain ⟨h1, h2⟩ := numeral_iff.1 hb.1
    obtain ⟨h3, h4⟩ := numeral_iff.1 hb.2
    simp only [Spec.Bound.source, List.append_assoc] at hs
    rw [intTok_ok hs h1 h2 rfl]
    simp only [P.bind, P.or, tok_ok c!"-" (s := c!"-" ++ (hi ++ (c!"$$" ++ u))) (Solid.skip rfl)]
    rw [intTok_ok (num_solid h3 h4).skip h3 h4 hd]
    rfl
  | upTo hi =>
    obtain ⟨h3, h4⟩ := numeral_iff.1 hb
    simp only [Spec.Bound.source, List.append_assoc] at hs
    rw [intTok_fail (by rw [hs]; rfl), tok_ok c!"-" hs]
    simp only [P.bind, P.or, intTok_ok (num_solid h3 h4).skip h3 h4 hd]
    rfl
  | atLeast lo =>
    obtain ⟨h1, h2⟩ := numeral_iff.1 hb
    simp only [Spec.Bound.source, List.append_assoc] at hs
    rw [intTok_ok hs h1 h2 rfl, tok_fail (s := s) (by rw [hs]; exact num_prefix h1 h2 '-' [] (by decide))]
    simp only [P.bind, P.or, tok_ok c!"-" (s := c!"-" ++ (c!"$$" ++ u)) (Solid.skip rfl),
      intTok_fail (s := c!"$$" ++ u) (by rw [hsd]; rfl)]
    rfl

theorem sepTok_ok {sep u : Str} (hs : Spec.separatorOk sep = true) :
    sepTok (sep ++ (c!"$$" ++ u)) = .ok sep u := by
  simp only [Spec.separatorOk, Spec.separator, Bool.and_eq_true, bne_iff_ne, ne_eq, Bool.not_eq_true'] at hs
  obtain ⟨⟨h1, h2⟩, h3⟩ := hs
  have h2 : sep.all isSepChar = true := by
    rw [← h2]
    congr 1
    funext c
    rw [Bool.eq_iff_iff]
    simp [isSepChar, isPrintable, and_assoc]
  have hsk : skip (sep ++ (c!"$$" ++ u)) = sep ++ (c!"$$" ++ u) := by
    by_cases hb : sep.all isWs = false
    · exact skip_none (comment_unmarked h3 hb fun _ => rfl)
    · exact skip_none (Solid.blank_comment rfl (by simpa using hb))
  unfold sepTok
  rw [hsk, takeWhile_all_append h2 rfl]
  dsimp only
  rw [if_neg (by simpa using h1), List.drop_left, tok_ok _ (s := c!"$$" ++ u) (Solid.skip rfl)]
  rfl

/-- No `$$` ends a run of separator characters at the beginning of the text, even if white space comes
before it. -/
structure Safe (u : Str) : Prop where
  run : ∀ b : Str, b.all isWs = true → c!"$$".isPrefixOf (skip ((b ++ u).dropWhile isSepChar)) = false
  front : ∀ b : Str, b.all isWs = true → c!"$$".isPrefixOf (skip (b ++ u)) = false

theorem sepTok_fail {s b u : Str} (hs : skip s = b ++ u) (hb : b.all isWs = true) (hu : Safe u) :
    sepTok s = .fail := by
  unfold sepTok
  dsimp only
  rw [hs, drop_takeWhile]
  split
  · rfl
  · rw [tok_fail (hu.run b hb)]
    rfl

/-- Reading numbers and skipping comments never leads to `dd`. -/
def Guarded (d : Char) (s : Str) : Prop := ∀ s', Erode s s' → [d, d].isPrefixOf s' = false

theorem boundExpr_fail {s : Str} (hs : Guarded '$' s) : boundExpr s = .fail := by
  have he : Eats s (boundRangeTok s) := by
    unfold boundRangeTok
    refine .or ?_ (.or ?_ (.or ?_ ?_))
    · exact intTok_eats.bind fun _ _ => (tok_eats (by decide)).bind fun _ _ => intTok_eats.bind fun _ _ => .ok
    · exact (tok_eats (by decide)).bind fun _ _ => intTok_eats.bind fun _ _ => .ok
    · exact intTok_eats.bind fun _ _ => (tok_eats (by decide)).bind fun _ _ => .ok
    · exact intTok_eats.bind fun _ _ => .ok
  unfold boundExpr
  rcases he with h | ⟨b, r, hp, h⟩
  · rw [h]; rfl
  · rw [h]
    show (tok _ r).bind _ = _
    rw [tok_fail (hs _ (hp.trans (.skip r)))]
    rfl

/-- After a bound and possibly a separator, only white space and comments may have been read of what
follows. -/
theorem boundExpr_ok {M : Spec.Marks} {bd : Spec.Bound} {sep : Option Str} {s u b v : Str}
    (hb : Spec.boundOk (some (bd, sep)) M = true) (hs : skip s = Spec.boundSource (some (bd, sep)) ++ u)
    (hu : skip u = b ++ v) (hbl : b.all isWs = true) (hv : M.fenced = true → Safe v) :
    ∃ r, boundExpr s = .ok (toSpec bd, sep.getD c!",") r ∧ optWs r = optWs u := by
  unfold boundExpr
  cases sep with
  | none =>
    simp only [Spec.boundOk, Bool.and_eq_true] at hb
    simp only [Spec.boundSource, List.append_assoc] at hs
    rw [boundRangeTok_ok hb.1 hs]
    simp only [P.bind, tok_ok _ (s := c!"$$" ++ u) (Solid.skip rfl)]
    rw [sepTok_fail hu hbl (hv hb.2)]
    refine ⟨skip u, rfl, ?_⟩
    unfold optWs
    rw [skip_skip]
  | some sep =>
    simp only [Spec.boundOk, Bool.and_eq_true] at hb
    simp only [Spec.boundSource, List.append_assoc] at hs
    rw [boundRangeTok_ok hb.1 hs]
    simp only [P.bind, tok_ok _ (s := c!"$$" ++ (sep ++ (c!"$$" ++ u))) (Solid.skip rfl)]
    rw [sepTok_ok hb.2]
    exact ⟨u, rfl, rfl⟩

/-! ## Weights -/

theorem weightTok_fail {s : Str} (hs : Guarded ':' s) : weightTok s = .fail := by
  have he : Eats s (P.or (realTok s) ((intTok s).bind fun n s => .ok (n : Rat) s)) :=
    realTok_eats.or (intTok_eats.bind fun _ _ => .ok)
  unfold weightTok
  rcases he with h | ⟨b, r, hp, h⟩
  · rw [h]; rfl
  · rw [h]
    show (tok _ r).bind _ = _
    rw [tok_fail (hs _ (hp.trans (.skip r)))]
    rfl

theorem weightTok_ok {n : Spec.Num} {s u : Str} (hn : n.ok = true)
    (hc : skip s = Spec.weightSource (some n) ++ u) : weightTok s = .ok n.value u := by
  obtain ⟨w, d, sg⟩ := n
  have hsign : ∀ {c : Char} {v : Str}, isNum c = true ∨ c = '.' →
      (((c :: v).head? == some '-') = false ∧ ((c :: v).head? == some '+') = false) := by
    intro c v h
    rcases h with h | rfl
    · constructor <;>
      · simp only [List.head?_cons, beq_eq_false_iff_ne, ne_eq, Option.some.injEq]
        rintro rfl
        revert h
        decide
    · exact ⟨rfl, rfl⟩
  unfold weightTok
  cases d with
  | none =>
    simp only [Spec.Num.ok, digit_eq, Bool.and_eq_true, bne_iff_ne, ne_eq] at hn
    simp only [Spec.weightSource, Spec.Num.source, List.append_assoc] at hc
    have hr : realTok s = .fail := by
      unfold realTok
      rw [hc]
      obtain ⟨hn1, hn2⟩ := hn
      cases w with
      | nil => contradiction
      | cons c w =>
        have hn1' := hn1
        simp only [List.all_cons, Bool.and_eq_true] at hn1
        obtain ⟨e1, e2⟩ := hsign (v := w ++ (c!"::" ++ u)) (.inl hn1.1)
        rw [List.cons_append]
        simp only [e1, e2, Bool.or_false, Bool.false_eq_true, if_false]
        rw [← List.cons_append, takeWhile_all_append hn1' rfl, List.drop_left]
        rfl
    rw [hr, intTok_ok hc hn.1 hn.2 rfl]
    simp only [P.bind, P.or, tok_ok _ (s := c!"::" ++ u) (Solid.skip rfl)]
    rfl
  | some d =>
    simp only [Spec.Num.ok, digit_eq, Bool.and_eq_true, Bool.or_eq_true, bne_iff_ne, ne_eq] at hn
    obtain ⟨⟨⟨hn1, hn2⟩, hn3⟩, hn4⟩ := hn
    simp only [Spec.weightSource, Spec.Num.source, List.append_assoc] at hc
    have hr : realTok s =
        .ok (Spec.Num.value ⟨w, some d, sg⟩) (c!"::" ++ u) := by
      unfold realTok
      rw [hc]
      have hsg : ∀ v : Str, ((v.head? == some '-') = false ∧ (v.head? == some '+') = false) →
          ((sg ++ v).head? == some '-') = decide (sg = c!"-") ∧
          (if ((sg ++ v).head? == some '-' || (sg ++ v).head? == some '+') = true then (sg ++ v).drop 1 else sg ++ v)
            = v := by
        intro v hv
        simp only [List.contains_iff_mem, List.mem_cons, List.not_mem_nil, or_false] at hn4
        rcases hn4 with rfl | rfl | rfl
        · simp [hv.1, hv.2]
        · exact ⟨rfl, rfl⟩
        · exact ⟨rfl, rfl⟩
      have hh : ((w ++ (c!"." ++ (d ++ (c!"::" ++ u)))).head? == some '-') = false ∧
          ((w ++ (c!"." ++ (d ++ (c!"::" ++ u)))).head? == some '+') = false := by
        cases w with
        | nil => exact hsign (.inr rfl)
        | cons c w =>
          simp only [List.all_cons, Bool.and_eq_true] at hn1
          exact hsign (.inl hn1.1)
      obtain ⟨g1, g2⟩ := hsg _ hh
      simp only []
      rw [g2, g1, takeWhile_all_append hn1 rfl, List.drop_left]
      simp only [List.cons_append, List.nil_append]
      rw [show (':' :: ':' :: u) = (c!"::" ++ u) from rfl, takeWhile_all_append hn2 rfl, List.drop_left, if_neg, decVal_eq hn1 hn2]
      · unfold Spec.Num.value
        by_cases h : sg = c!"-"
        · simp [h]
        · simp [h]
      · simp only [Bool.and_eq_true, List.isEmpty_iff, not_and]
        intro hw hd
        rcases hn3 with h | h
        · exact h hw
        · exact h hd
    rw [hr]
    simp only [P.bind, P.or, tok_ok _ (s := c!"::" ++ u) (Solid.skip rfl)]

end Verif
