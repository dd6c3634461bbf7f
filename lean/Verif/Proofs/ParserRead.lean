import Verif.Proofs.ParserCorrect
/-! # Variables, wraps, wildcards and whole templates -/

namespace Verif
open Spec (blank digit letter natOf digitVal marked markedLine Reader calm Piece Opt Param Place source optsSource
  paramsSource optsMeaning paramsMeaning meanings pathMeaning meaning together optsOk paramsOk)

/-! ## Variables and wraps -/

/-- After a name. -/
theorem gap_not_name {w : Str} (hw : Spec.gap w = true) {u : Str}
    (hu : u.head?.any (fun c => isAlpha c || isNum c || c == '_' || c == '-') = false) :
    (w ++ u).head?.any (fun c => isAlpha c || isNum c || c == '_' || c == '-') = false := by
  cases w with
  | nil => exact hu
  | cons c w =>
    simp only [Spec.gap, Bool.or_eq_true, beq_iff_eq, read_cons] at hw
    simp only [List.cons_append, List.head?_cons, Option.any_some]
    have : isWs c = true ∨ c = '#' ∨ c = '/' := by
      by_cases h1 : isWs c = true
      · exact .inl h1
      by_cases h2 : c = '#'
      · exact .inr (.inl h2)
      by_cases h3 : c = '/'
      · exact .inr (.inr h3)
      rw [← blank_eq] at h1
      simp [Reader.step, h1, h2, h3] at hw
    rcases this with h | rfl | rfl
    · simp only [isWs, Bool.or_eq_true, beq_iff_eq] at h
      rcases h with ((rfl | rfl) | rfl) | rfl <;> rfl
    · rfl
    · rfl

theorem varName_solid {nm : Str} (h : Spec.varName nm = true) (u : Str) : Solid (nm ++ u) := by
  cases nm with
  | nil => simp [Spec.varName, Spec.beginsWith] at h
  | cons c cs =>
    simp only [Spec.varName, Spec.beginsWith, List.head?_cons, Option.any_some, letter_eq, digit_eq,
      Bool.and_eq_true] at h
    have h1 := h.1
    refine solid_cons (u := cs ++ u) ?_
    rw [Bool.eq_false_iff]
    intro hw
    simp only [isWs, Bool.or_eq_true, beq_iff_eq] at hw
    rcases hw with (((((rfl | rfl) | rfl) | rfl) | rfl) | rfl) | rfl <;> revert h1 <;> decide

/-- White space at the end of white space and comments is not skipped. -/
theorem gap_skip_blank {w X : Str} (h : Spec.gap w = true) (he : Spec.endsIn blank w = true)
    (hX : comment X = none) : ∃ b, b.all isWs = true ∧ b ≠ [] ∧ skip (w ++ X) = b ++ X := by
  rcases List.eq_nil_or_concat w with rfl | ⟨w', c, rfl⟩
  · simp [Spec.endsIn] at he
  simp only [List.concat_eq_append, Spec.endsIn, List.getLast?_append, List.getLast?_singleton,
    Option.or_some, Option.getD_some, Option.any_some, Option.some_or, blank_eq] at he
  simp only [List.concat_eq_append, Spec.gap, Bool.or_eq_true, beq_iff_eq, read_append] at h
  rw [List.concat_eq_append, List.append_assoc]
  have hcne : c ≠ '/' ∧ c ≠ '#' ∧ c ≠ '*' := by
    refine ⟨?_, ?_, ?_⟩ <;> rintro rfl <;> revert he <;> decide
  have hcX : ∀ {b : Str}, b.all isWs = true → skip (b ++ ([c] ++ X)) = (b ++ [c]) ++ X := by
    intro b hb
    rw [← List.append_assoc]
    refine skip_none ?_
    rw [comment_blank (by rw [List.all_append, hb]; simp [he]), hX]
  have key : ∀ {ρ : Reader}, Reader.out.read w' = some ρ → (ρ = .out ∨ ρ = .closed ∨ ρ = .line) →
      LineEnd ρ ([c] ++ X) → ∃ b, b.all isWs = true ∧ b ≠ [] ∧ skip (w' ++ ([c] ++ X)) = b ++ X := by
    intro ρ h1 h2 h3
    obtain ⟨b, hb, hs⟩ := skip_gap h1 h2 h3
    exact ⟨b ++ [c], by rw [List.all_append, hb]; simp [he], by simp, by rw [hs, hcX hb]⟩
  cases hr : Reader.out.read w' with
  | none => rw [hr] at h; simp at h
  | some ρ =>
    rw [hr] at h
    simp only [Option.bind_some, read_cons] at h
    cases ρ with
    | out => exact key hr (.inl rfl) (by rintro ⟨⟩)
    | closed => exact key hr (.inr (.inl rfl)) (by rintro ⟨⟩)
    | line =>
      refine key hr (.inr (.inr rfl)) fun _ => .inr ?_
      by_cases hn : c = '\n'
      · rw [hn]; rfl
      · simp [Reader.step, hn, Reader.read] at h
    | slash => simp [Reader.step, hcne.1, hcne.2.2, Reader.read] at h
    | block => simp [Reader.step, hcne.2.2, Reader.read] at h
    | star => simp [Reader.step, hcne.1, hcne.2.2, Reader.read] at h

section
variable {M : Spec.Marks} {al : Char → Bool} {n : Nat} {vp : Str → P Cmd} (hM : Fit M al)

/-- The common beginning of everything about a variable: its name. -/
theorem name_ok {w1 nm w2 R : Str} (h1 : Spec.gapOk w1 = true) (hn : Spec.varName nm = true)
    (h2 : Spec.gapOk w2 = true)
    (hR : R.head?.any (fun c => isAlpha c || isNum c || c == '_' || c == '-') = false) (hR' : Solid R) :
    nameTok (optWs (w1 ++ (nm ++ (w2 ++ R)))) = .ok nm (w2 ++ R) ∧ optWs (w2 ++ R) = R := by
  have hs := varName_solid hn (w2 ++ R)
  rw [optWs_gap (gapOk_gap h1) hs.comment hs.noWs]
  exact ⟨nameTok_ok hs.skip hn (gap_not_name (gapOk_gap h2) hR), optWs_gap (gapOk_gap h2) hR'.comment hR'.noWs⟩

/-- The end of a variable. -/
theorem close_ok {d r u : Str} (hd : Spec.markOk d = true) (h : skip r = d ++ u) : tok d (optWs r) = .ok () u := by
  rw [optWs_of_skip h (mark_solid hd u).noWs]
  exact tok_ok d (mark_solid hd u).skip

include hM in
/-- Marks that end a part are not parts of names. -/
theorem closing_name {d : Str} (hd : Closing M d) (u : Str) :
    (d ++ u).head?.any (fun c => isAlpha c || isNum c || c == '_' || c == '-') = false := by
  have hk := hM.mark d (.inr hd)
  refine mark_any hk ?_ u
  obtain ⟨c, r, rfl, -⟩ := markOk_head hk
  have h1 := hM.head _ (.inr hd)
  have h2 := hM.closing _ hd
  simp only [List.head?_cons, Option.any_some, Bool.or_eq_false_iff, letter_eq, digit_eq] at h1 h2 ⊢
  refine ⟨⟨h1.1.1, ?_⟩, ?_⟩ <;> rw [beq_eq_false_iff_ne] <;> rintro rfl <;> exact absurd h2 (by decide)

include hM in
theorem closing_not {d : Str} (hd : Closing M d) {c : Char} (hc : c ∈ c!"_+-.*?=~!@") (u : Str) :
    (d ++ u).head? ≠ some c := by
  intro e
  have hk := hM.mark d (.inr hd)
  have := mark_any hk (hM.closing d hd) u
  rw [e] at this
  simp only [Option.any_some] at this
  rw [← Bool.not_eq_true, List.contains_iff_mem] at this
  exact this hc

include hM in
theorem mark_not_colon {d : Str} (hd : Begins M d ∨ Closing M d) {c : Char} (hc : c ∈ c!":(|") (u : Str) :
    (d ++ u).head? ≠ some c := by
  intro e
  have := mark_any (hM.mark d hd) (mark_colon hM hd (p := fun x => x == c) (by simpa using hc)) u
  rw [e] at this
  simp at this

theorem char_prefix {c : Char} {u : Str} (h : u.head? ≠ some c) : [c].isPrefixOf u = false := by
  refine isPrefixOf_head ?_ (by simp)
  rintro _ ⟨⟩ e
  exact h e

include hM in
theorem accessTok_get {w1 nm w2 s u : Str} {l : Place} (h : (Piece.get w1 nm w2).ok l M = true)
    (hs : skip s = (Piece.get w1 nm w2).source M ++ u) :
    accessTok (.of M al) vp s = .ok (nm, none) u := by
  rw [Piece.ok] at h
  simp only [Bool.and_eq_true] at h
  rw [Piece.source] at hs
  simp only [List.append_assoc] at hs
  have hk := hM.mark M.variableEnd (.inr (.inr (.inl rfl)))
  obtain ⟨e1, e2⟩ := name_ok (R := M.variableEnd ++ u) h.1.1 h.2 h.1.2 (closing_name hM (.inr (.inl rfl)) u)
    (mark_solid hk u)
  have hc : skip (M.variableEnd ++ u) = M.variableEnd ++ u := (mark_solid hk u).skip
  unfold accessTok
  show (tok M.variableStart _).bind _ = _
  rw [tok_ok M.variableStart hs, P.ok_bind, e1]
  simp only [P.ok_bind]
  rw [e2, tok_fail (by rw [hc]; exact char_prefix (mark_not_colon hM (.inr (.inr (.inl rfl))) (by decide) u)),
    P.fail_bind, hc]
  simp only [P.opt, P.ok_bind]
  show (tok M.variableEnd _).bind _ = _
  rw [close_ok hk hc, P.ok_bind]

include hM in
theorem accessTok_getD (hv : Reads M n vp) {w1 nm w2 w3 s u : Str} {d : List Piece} {l : Place}
    (h : (Piece.getD w1 nm w2 w3 d).ok l M = true)
    (hs : skip s = (Piece.getD w1 nm w2 w3 d).source M ++ u)
    (hn : ((Piece.getD w1 nm w2 w3 d).source M ++ u).length ≤ n) :
    accessTok (.of M al) vp s = .ok (nm, some (meaning d)) u := by
  rw [Piece.ok] at h
  simp only [Bool.and_eq_true] at h
  obtain ⟨⟨⟨⟨⟨⟨⟨hcl, h1⟩, h2⟩, h3⟩, hnm⟩, hd⟩, hb⟩, -⟩ := h
  have hk := hM.mark M.variableEnd (.inr (.inr (.inl rfl)))
  have hE : Ends M (M.variableEnd ++ u) := .mark hM (.inr (.inl rfl)) hcl u
  have hst := List.length_pos_iff.2 (markOk_cases (hM.mark M.variableStart (.inl (.inr (.inr (.inl rfl)))))).1
  rw [Piece.source] at hs hn
  simp only [List.append_assoc] at hs hn
  obtain ⟨e1, e2⟩ := name_ok (R := c!":" ++ (w3 ++ (source d M ++ (M.variableEnd ++ u)))) h1 hnm h2 rfl rfl
  obtain ⟨f1, f2⟩ := front_facts hM (T := M.variableEnd ++ u) hd hb hE.solid hE.noMark
  have hlen : (skip (source d M ++ (M.variableEnd ++ u))).length < n := by
    have := skip_length (source d M ++ (M.variableEnd ++ u))
    simp only [List.length_append, List.length_cons, List.length_nil] at hn this ⊢
    omega
  obtain ⟨r, hr1, hr2⟩ := hv d _ _ hd hE rfl hlen
  unfold accessTok
  show (tok M.variableStart _).bind _ = _
  rw [tok_ok M.variableStart hs, P.ok_bind, e1]
  simp only [P.ok_bind]
  rw [e2, tok_ok c!":" (s := c!":" ++ (w3 ++ (source d M ++ (M.variableEnd ++ u)))) (Solid.skip rfl), P.ok_bind,
    optWs_gap (gapOk_gap h3) f1 f2, hr1]
  simp only [P.opt, P.ok_bind]
  show (tok M.variableEnd _).bind _ = _
  rw [close_ok hk hr2, P.ok_bind]

include hM in
theorem assign_ok (hv : Reads M n vp) {w1 nm w2 w3 s u : Str} {keep now : Bool} {v : List Piece} {l : Place}
    (h : (Piece.set w1 nm w2 keep now w3 v).ok l M = true)
    (hs : skip s = (Piece.set w1 nm w2 keep now w3 v).source M ++ u)
    (hn : ((Piece.set w1 nm w2 keep now w3 v).source M ++ u).length ≤ n) :
    variableAssignment (.of M al) vp s = .ok (Piece.set w1 nm w2 keep now w3 v).meaning u := by
  rw [Piece.ok] at h
  simp only [Bool.and_eq_true] at h
  obtain ⟨⟨⟨⟨⟨⟨⟨⟨hcl, -⟩, h1⟩, h2⟩, h3⟩, hnm⟩, hd⟩, hb⟩, hbang⟩ := h
  have hk := hM.mark M.variableEnd (.inr (.inr (.inl rfl)))
  have hE : Ends M (M.variableEnd ++ u) := .mark hM (.inr (.inl rfl)) hcl u
  have hst := List.length_pos_iff.2 (markOk_cases (hM.mark M.variableStart (.inl (.inr (.inr (.inl rfl)))))).1
  rw [Piece.source] at hs hn
  simp only [List.append_assoc] at hs hn
  obtain ⟨f1, f2⟩ := front_facts hM (T := M.variableEnd ++ u) hd hb hE.solid hE.noMark
  obtain ⟨e1, e2⟩ := name_ok (R := (if keep = true then c!"?" else []) ++ (c!"=" ++
    ((if now = true then c!"!" else []) ++ (w3 ++ (source v M ++ (M.variableEnd ++ u)))))) h1 hnm h2
    (by cases keep <;> rfl) (by cases keep <;> rfl)
  have hlen : (skip (source v M ++ (M.variableEnd ++ u))).length < n := by
    have := skip_length (source v M ++ (M.variableEnd ++ u))
    simp only [List.length_append, List.length_cons, List.length_nil] at hn this ⊢
    omega
  obtain ⟨r, hr1, hr2⟩ := hv v _ _ hd hE rfl hlen
  unfold variableAssignment
  show (tok M.variableStart _).bind _ = _
  rw [tok_ok M.variableStart hs, P.ok_bind, e1]
  simp only [P.ok_bind]
  rw [e2]
  have heq : ∀ X : Str, skip (c!"=" ++ X) = c!"=" ++ X := fun X => Solid.skip rfl
  have hkeep : P.opt (tok c!"?" ((if keep = true then c!"?" else []) ++ (c!"=" ++
      ((if now = true then c!"!" else []) ++ (w3 ++ (source v M ++ (M.variableEnd ++ u)))))))
      (skip ((if keep = true then c!"?" else []) ++ (c!"=" ++
      ((if now = true then c!"!" else []) ++ (w3 ++ (source v M ++ (M.variableEnd ++ u))))))) =
      .ok (if keep then some () else none) (c!"=" ++
      ((if now = true then c!"!" else []) ++ (w3 ++ (source v M ++ (M.variableEnd ++ u))))) := by
    cases keep with
    | true =>
      simp only [if_true]
      rw [tok_ok c!"?" (s := c!"?" ++ (c!"=" ++
        ((if now = true then c!"!" else []) ++ (w3 ++ (source v M ++ (M.variableEnd ++ u)))))) (Solid.skip rfl)]
      rfl
    | false =>
      simp only [Bool.false_eq_true, if_false, List.nil_append]
      rw [tok_fail (by rw [heq]; rfl), heq]; rfl
  have hnow : ∃ r, P.opt (tok c!"!" ((if now = true then c!"!" else []) ++
      (w3 ++ (source v M ++ (M.variableEnd ++ u)))))
      (skip ((if now = true then c!"!" else []) ++ (w3 ++ (source v M ++ (M.variableEnd ++ u))))) =
      .ok (if now then some () else none) r ∧ optWs r = source v M ++ (M.variableEnd ++ u) := by
    cases now with
    | true =>
      simp only [if_true]
      refine ⟨_, ?_, optWs_gap (gapOk_gap h3) f1 f2⟩
      rw [tok_ok c!"!" (s := c!"!" ++ (w3 ++ (source v M ++ (M.variableEnd ++ u)))) (Solid.skip rfl)]
      rfl
    | false =>
      simp only [Bool.false_eq_true, if_false, List.nil_append]
      refine ⟨skip (w3 ++ (source v M ++ (M.variableEnd ++ u))), ?_, ?_⟩
      · rw [tok_fail]
        · rfl
        · have hX : ∃ b, b.all isWs = true ∧ skip (w3 ++ (source v M ++ (M.variableEnd ++ u))) =
              b ++ (source v M ++ (M.variableEnd ++ u)) ∧ (b = [] → Spec.beginsWith (· == '!') (source v M) = false) := by
            simp only [Bool.false_or, Bool.or_eq_true, Bool.not_eq_true'] at hbang
            rcases hbang with hb1 | hb1
            · obtain ⟨b, hb2, hb3⟩ := gap_skip h3 f1
              exact ⟨b, hb2, hb3, fun _ => hb1⟩
            · obtain ⟨b, hb2, hb3, hb4⟩ := gap_skip_blank (gapOk_gap h3) hb1 f1
              exact ⟨b, hb2, hb4, fun e => absurd e hb3⟩
          obtain ⟨b, hb1, hb2, hb3⟩ := hX
          rw [hb2]
          refine isPrefixOf_head ?_ (by simp)
          rintro _ ⟨⟩ hh
          cases b with
          | nil =>
            have := head_append (p := (· == '!')) (hb3 rfl) (b := M.variableEnd ++ u)
              (mark_any hk (head_contains (hM.closing _ (.inr (.inl rfl))) (by simp)) u)
            rw [List.nil_append] at hh
            rw [hh] at this
            simp at this
          | cons c b =>
            simp only [List.cons_append, List.head?_cons, Option.some.injEq] at hh
            subst hh
            revert hb1
            simp [isWs]
      · have := optWs_gap (gapOk_gap h3) f1 f2
        unfold optWs at this ⊢
        rw [skip_skip]
        exact this
  obtain ⟨r', hr1', hr2'⟩ := hnow
  rw [hkeep, P.ok_bind, tok_ok c!"=" (heq _), P.ok_bind, hr1', P.ok_bind, hr2', hr1, P.ok_bind]
  show (tok M.variableEnd _).bind _ = _
  rw [close_ok hk hr2, P.ok_bind, Piece.meaning]
  cases keep <;> cases now <;> rfl

include hM in
/-- A variable without assignment is not an assignment. -/
theorem assign_fail_get {s w1 nm w2 R : Str} (h1 : Spec.gapOk w1 = true) (hnm : Spec.varName nm = true)
    (h2 : Spec.gapOk w2 = true) (hR : (∃ u, R = c!":" ++ u) ∨ ∃ u, R = M.variableEnd ++ u)
    (hs : skip s = M.variableStart ++ (w1 ++ (nm ++ (w2 ++ R)))) :
    variableAssignment (.of M al) vp s = .fail := by
  have hk := hM.mark M.variableEnd (.inr (.inr (.inl rfl)))
  have hsol : Solid R := by
    rcases hR with ⟨u, rfl⟩ | ⟨u, rfl⟩
    · rfl
    · exact mark_solid hk u
  have hno : ∀ c, c = '?' ∨ c = '=' → R.head? ≠ some c := by
    intro c hc
    rcases hR with ⟨u, rfl⟩ | ⟨u, rfl⟩
    · rcases hc with rfl | rfl <;> simp
    · exact closing_not hM (.inr (.inl rfl)) (by rcases hc with rfl | rfl <;> decide) u
  obtain ⟨e1, e2⟩ := name_ok (R := R) h1 hnm h2 (by
    rcases hR with ⟨u, rfl⟩ | ⟨u, rfl⟩
    · rfl
    · exact closing_name hM (.inr (.inl rfl)) u) hsol
  unfold variableAssignment
  show (tok M.variableStart _).bind _ = _
  rw [tok_ok M.variableStart hs, P.ok_bind, e1]
  simp only [P.ok_bind]
  rw [e2, tok_fail (by
    rw [hsol.skip]
    exact char_prefix (hno _ (.inl rfl))), hsol.skip]
  simp only [P.opt, P.ok_bind]
  rw [tok_fail (by
    rw [hsol.skip]
    exact char_prefix (hno _ (.inr rfl)))]
  rfl

include hM in
theorem wrap_ok (hv : Reads M n vp) {w1 w2 s u : Str} {a b : List Piece} {l : Place}
    (h : (Piece.wrap w1 a w2 b).ok l M = true)
    (hs : skip s = (Piece.wrap w1 a w2 b).source M ++ u)
    (hn : ((Piece.wrap w1 a w2 b).source M ++ u).length ≤ n) :
    wrapCommand (.of M al) vp s = .ok (Piece.wrap w1 a w2 b).meaning u := by
  rw [Piece.ok] at h
  simp only [Bool.and_eq_true] at h
  obtain ⟨⟨⟨⟨⟨⟨⟨hcl, -⟩, h1⟩, h2⟩, ha⟩, hb⟩, hba⟩, hbb⟩ := h
  have hk := hM.mark M.wrapEnd (.inr (.inr (.inr rfl)))
  have hE : Ends M (M.wrapEnd ++ u) := .mark hM (.inr (.inr rfl)) hcl u
  have hst := List.length_pos_iff.2 (markOk_cases (hM.mark M.wrapStart (.inl (.inr (.inr (.inr rfl)))))).1
  rw [Piece.source] at hs hn
  simp only [List.append_assoc] at hs hn
  obtain ⟨f1, f2⟩ := front_facts hM (T := c!"$$" ++ (w2 ++ (source b M ++ (M.wrapEnd ++ u)))) ha hba rfl rfl
  obtain ⟨g1, g2⟩ := front_facts hM (T := M.wrapEnd ++ u) hb hbb hE.solid hE.noMark
  simp only [List.length_append, List.length_cons, List.length_nil] at hn
  have hl1 : (skip (source a M ++ (c!"$$" ++ (w2 ++ (source b M ++ (M.wrapEnd ++ u)))))).length < n := by
    have := skip_length (source a M ++ (c!"$$" ++ (w2 ++ (source b M ++ (M.wrapEnd ++ u)))))
    simp only [List.length_append, List.length_cons, List.length_nil] at this; omega
  have hl2 : (skip (source b M ++ (M.wrapEnd ++ u))).length < n := by
    have := skip_length (source b M ++ (M.wrapEnd ++ u))
    simp only [List.length_append, List.length_cons, List.length_nil] at this; omega
  obtain ⟨r, hr1, hr2⟩ := hv a _ _ ha (.dollars hM _) rfl hl1
  obtain ⟨r', hr1', hr2'⟩ := hv b _ _ hb hE rfl hl2
  unfold wrapCommand
  show (tok M.wrapStart _).bind _ = _
  rw [tok_ok M.wrapStart hs, P.ok_bind, optWs_gap (gapOk_gap h1) f1 f2, hr1, P.ok_bind, optWs_of_skip hr2 rfl,
    tok_ok c!"$$" (s := c!"$$" ++ (w2 ++ (source b M ++ (M.wrapEnd ++ u)))) (Solid.skip rfl), P.ok_bind,
    optWs_gap (gapOk_gap h2) g1 g2, hr1', P.ok_bind]
  show (tok M.wrapEnd _).bind _ = _
  rw [tok_ok M.wrapEnd hr2', P.ok_bind, Piece.meaning]
  rfl

/-! ## Wildcards -/

/-- The command of one part of a path. -/
def pathMean : Piece → Cmd
  | .get _ n _ => .access n (some (.lit n none))
  | .getD _ n _ _ d => .access n (some (.lit (Spec.pathDefault n d) none))
  | p => p.meaning

theorem pathMeaning_eq : ∀ ps : List Piece, pathMeaning ps = ps.map pathMean
  | [] => by rw [pathMeaning]; rfl
  | p :: ps => by
    rw [List.map_cons, ← pathMeaning_eq ps]
    cases p <;> simp [pathMeaning, pathMean]

theorem strip_trimmed {s : Str} (h1 : s.head?.any isSpace = false) (h2 : s.getLast?.any isSpace = false) :
    strip s = s := by
  unfold strip stripP rstripP lstripP
  rw [dropWhile_head_any h1, dropWhile_head_any (by rw [List.head?_reverse]; exact h2), List.reverse_reverse]

theorem varName_trimmed {nm : Str} (h : Spec.varName nm = true) : strip nm = nm := by
  have hns : ∀ c, (letter c || digit c || c!"_-".contains c) = true → isSpace c = false := by
    intro c hc
    rw [letter_eq, digit_eq] at hc
    have : (c.toNat ∈ List.range 128) ∧ 45 ≤ c.toNat := by
      simp only [Bool.or_eq_true, isAlpha, isNum, Bool.and_eq_true, decide_eq_true_eq,
        List.contains_cons, List.contains_nil, Bool.or_false, beq_iff_eq] at hc
      rw [List.mem_range]
      have e1 : 'a'.toNat = 97 := rfl
      have e2 : 'z'.toNat = 122 := rfl
      have e3 : 'A'.toNat = 65 := rfl
      have e4 : 'Z'.toNat = 90 := rfl
      have e5 : '0'.toNat = 48 := rfl
      have e6 : '9'.toNat = 57 := rfl
      rcases hc with (hc | hc) | rfl | rfl
      · omega
      · omega
      · decide
      · decide
    rw [List.mem_range] at this
    unfold isSpace
    simp only [Bool.or_eq_false_iff, Bool.and_eq_false_iff, decide_eq_false_iff_not, beq_eq_false_iff_ne]
    omega
  simp only [Spec.varName, Bool.and_eq_true] at h
  have hall := List.all_eq_true.1 h.2
  refine strip_trimmed ?_ ?_
  · cases hh : nm.head? with
    | none => rfl
    | some c => exact hns c (hall c (List.mem_of_head? hh))
  · cases hh : nm.getLast? with
    | none => rfl
    | some c => exact hns c (hall c (List.mem_of_getLast? hh))

theorem access_fail {s : Str} (h : M.variableStart.isPrefixOf (skip s) = false) :
    accessTok (.of M al) vp s = .fail := by
  unfold accessTok
  show (tok M.variableStart _).bind _ = _
  rw [tok_fail h]; rfl

theorem variants_fail {s : Str} (h : M.variantStart.isPrefixOf (skip s) = false) :
    variantsTok (.of M al) vp s = .fail := by
  unfold variantsTok
  show (tok M.variantStart _).bind _ = _
  rw [tok_fail h]; rfl

theorem wrap_fail {s : Str} (h : M.wrapStart.isPrefixOf (skip s) = false) :
    wrapCommand (.of M al) vp s = .fail := by
  unfold wrapCommand
  show (tok M.wrapStart _).bind _ = _
  rw [tok_fail h]; rfl

theorem assign_fail {s : Str} (h : M.variableStart.isPrefixOf (skip s) = false) :
    variableAssignment (.of M al) vp s = .fail := by
  unfold variableAssignment
  show (tok M.variableStart _).bind _ = _
  rw [tok_fail h]; rfl

theorem wild_fail {pv : Str → P Cmd} {s : Str}
    (h : M.wildcardWrap.isPrefixOf (skip s) = false) : wildcardTok (.of M al) vp pv s = .fail := by
  unfold wildcardTok
  show (tok M.wildcardWrap _).bind _ = _
  rw [tok_fail h]; rfl

/-- Text is none of the other parts. -/
theorem text_heads {l : Place} {t u : Str} (h : Spec.plain l t M = true) {d : Str} (hd : Opening M d) (hne : d ≠ []) :
    d.isPrefixOf (t ++ u) = false := by
  simp only [Spec.plain, Bool.and_eq_true, bne_iff_ne, ne_eq] at h
  cases t with
  | nil => exact absurd rfl h.1.1
  | cons c t =>
    have hc := List.all_eq_true.1 h.1.2 c List.mem_cons_self
    rw [Bool.not_eq_true', ← Bool.not_eq_true, List.contains_iff_mem] at hc
    cases d with
    | nil => exact absurd rfl hne
    | cons e d =>
      refine isPrefixOf_head ?_ (by simp)
      rintro _ ⟨⟩ he
      simp only [List.cons_append, List.head?_cons, Option.some.injEq] at he
      subst he
      apply hc
      simp only [Place.special, List.mem_append]
      rcases hd with h | h | h <;> rw [← h] <;> simp

theorem text_not_wild {t u : Str} (h0 : t ≠ []) (h : hasSub M.wildcardWrap t = false)
    (h3 : Apart M.wildcardWrap t u) : M.wildcardWrap.isPrefixOf (t ++ u) = false := by
  refine prefix_apart h0 ?_ h3
  cases t with
  | nil => contradiction
  | cons c t =>
    simp only [hasSub, Bool.or_eq_false_iff] at h
    exact h.1

/-- Text between parts that are not text. -/
theorem literal_text {l : Place} {s t u : Str} (h : Spec.textOk l t M = true)
    (hu : TextStops M.wildcardWrap (exOf M al l) t u) (hs : skip s = t ++ u) (hstop : Stops M.wildcardWrap (exOf M al l) (skip u)) :
    literal M.wildcardWrap (exOf M al l) s = .ok (.lit t none) u := by
  obtain ⟨f1, f2⟩ := plain_facts (al := al) h
  have hne := text_ne h
  have hls := skip_length s
  have hl1 := List.length_pos_iff.2 hne
  rw [hs, List.length_append] at hls
  obtain ⟨j, hj⟩ : ∃ j, s.length = j + 1 := ⟨s.length - 1, by omega⟩
  unfold literal
  rw [hj, litPieces_text_step hs hu.1 hne f1 f2 hu.2, litPieces_stop hstop]
  rfl

include hM in
/-- One part of a path. -/
theorem path_piece (hv : Reads M n vp) (p : Piece) (r : Str) (h : p.ok .path M = true)
    (hr : ∀ t, p = .text t → TextStops M.wildcardWrap (exOf M al .path) t r) (hs : skip (p.source M ++ r) = p.source M ++ r)
    (hr' : ∀ t, p = .text t → Stops M.wildcardWrap (exOf M al .path) (skip r)) (hn : (p.source M ++ r).length ≤ n) :
    (((p.source M ++ r).dropWhile isWs).head? == some '(') = false ∧
    P.or (wildcardVariableAccess (.of M al) vp (p.source M ++ r))
        (P.or (variantsTok (.of M al) vp (p.source M ++ r))
          (P.or (literal M.wildcardWrap (ParserCfg.of M al).wildcardSpecial (p.source M ++ r))
            (literal M.wildcardWrap (ParserCfg.of M al).variantSpecial (p.source M ++ r)))) =
      .ok (pathMean p) r := by
  have hparen : Piece.Proper p → ((((p.source M ++ r).dropWhile isWs).head? == some '(') = false) := by
    intro hp
    obtain ⟨d, s, e, hd⟩ := proper_begins (M := M) p hp
    have hk := hM.mark d (.inl hd)
    rw [e, List.append_assoc, dropWhile_head_any (mark_solid hk _).noWs, beq_eq_false_iff_ne]
    exact mark_not_colon hM (.inl hd) (by decide) _
  cases p with
  | note t => rw [Piece.ok] at h; simp at h
  | text t =>
    rw [Piece.ok] at h
    rw [Piece.source] at hs hn ⊢
    have hpl := (text_plain h).1
    constructor
    · have hb : t.all isWs = false := by
        simp only [Spec.textOk, Bool.and_eq_true, Bool.not_eq_true', blank_eq] at h
        exact h.2.2
      obtain ⟨d, ds, hd, -⟩ := dropWhile_ne_nil hb
      rw [dropWhile_append_some r hb, hd]
      have hmem : d ∈ t := (List.dropWhile_suffix isWs).subset (by rw [hd]; exact List.mem_cons_self)
      simp only [Spec.plain, Bool.and_eq_true] at hpl
      have := List.all_eq_true.1 hpl.1.2 d hmem
      simp only [List.cons_append, List.head?_cons, beq_eq_false_iff_ne, ne_eq, Option.some.injEq]
      rintro rfl
      rw [Bool.not_eq_true', ← Bool.not_eq_true, List.contains_iff_mem] at this
      exact this (by simp [Place.special])
    · have e1 := text_heads (u := r) hpl (.inr (.inl rfl)) (markOk_cases (hM.mark M.variableStart (.inl (.inr (.inr (.inl rfl)))))).1
      have e2 := text_heads (u := r) hpl (.inl rfl) (markOk_cases (hM.mark M.variantStart (.inl (.inr (.inl rfl))))).1
      unfold wildcardVariableAccess
      rw [access_fail (by rw [hs]; exact e1), variants_fail (by rw [hs]; exact e2), P.fail_bind, P.fail_or,
        P.fail_or]
      have := literal_text (al := al) h (hr t rfl) hs (hr' t rfl)
      change literal M.wildcardWrap (ParserCfg.of M al).wildcardSpecial (t ++ r) = _ at this
      rw [this, P.ok_or, pathMean, Piece.meaning]
      all_goals simp
  | choice w m b o more =>
    constructor
    · exact hparen trivial
    · have hh : M.variableStart.isPrefixOf (skip ((Piece.choice w m b o more).source M ++ r)) = false := by
        rw [hs, Piece.source]; simp only [List.append_assoc]; exact clash_prefix (clash_symm hM.apart1)
      unfold wildcardVariableAccess
      rw [access_fail hh, P.fail_bind, P.fail_or, variantsTok_ok hM hv h hs hn, P.ok_or, pathMean]
      all_goals simp
  | wild m path ps => rw [Piece.ok] at h; simp at h
  | get w1 nm w2 =>
    have h' := h
    rw [Piece.ok] at h'
    simp only [Bool.and_eq_true] at h'
    constructor
    · exact hparen trivial
    · unfold wildcardVariableAccess
      rw [accessTok_get hM h hs, P.ok_bind]
      simp only [varName_trimmed h'.2]
      rfl
  | getD w1 nm w2 w3 d =>
    have h' := h
    rw [Piece.ok] at h'
    simp only [Bool.and_eq_true, bne_self_eq_false, Bool.false_or] at h'
    constructor
    · exact hparen trivial
    · unfold wildcardVariableAccess
      rw [accessTok_getD hM hv h hs hn, P.ok_bind]
      have hs := h'.2
      cases d with
      | nil =>
        have e : meaning [] = .seq [] [] none := by rw [meaning, meanings]; rfl
        simp only [e]
        simp only [Cmd.truthy]
        simp [varName_trimmed h'.1.1.1.2, pathMean, Spec.pathDefault, P.ok_or]
      | cons q qs =>
        cases q with
        | text t =>
          cases qs with
          | nil =>
            have e : meaning [.text t] = .lit t none := by
              rw [meaning, meanings, meanings]; rfl
            simp only [e, Cmd.truthy]
            simp [pathMean, Spec.pathDefault, P.ok_or]
          | cons q' qs => simp [Spec.simple] at hs
        | _ => simp [Spec.simple] at hs
  | set w1 nm w2 k i w3 v => rw [Piece.ok] at h; simp at h
  | wrap w1 a w2 b => rw [Piece.ok] at h; simp at h

include hM in
theorem source_ne_nil' {l : Place} {ps : List Piece} (h : Spec.ok l ps M = true) (hne : ps ≠ []) :
    source ps M ≠ [] := by
  cases ps with
  | nil => contradiction
  | cons p ps =>
    rw [Spec.ok] at h
    simp only [Bool.and_eq_true] at h
    rw [source]
    simp [source_ne_nil hM h.1.1]

include hM in
/-- A path is not preceded by anything that is skipped. -/
theorem path_skip {path : List Piece} {R : Str} (h : Spec.ok .path path M = true) (hne : path ≠ [])
    (hR : Solid R) (hm : (source path M).getLast? = some '/' → NoMark R) : skip (source path M ++ R) = source path M ++ R := by
  cases path with
  | nil => exact absurd rfl hne
  | cons p ps =>
    by_cases hp : Piece.Proper p
    · rw [proper_skip hM hp, source, List.append_assoc]
    · cases p with
      | note s => have := (ok_cons h).1; rw [Piece.ok] at this; simp at this
      | text t =>
        rw [text_skip hM h hR (by
          rintro rfl
          rw [source, source, Piece.source, List.append_nil] at hm
          exact hm), source, Piece.source, List.append_assoc]
      | _ => exact absurd trivial hp

include hM in
/-- The path of a wildcard. -/
theorem wildcardPath_ok (hv : Reads M n vp) {path : List Piece} {R : Str} (h : Spec.ok .path path M = true)
    (hne : path ≠ []) (hlast : Spec.endsIn M.touches (source path M) = false)
    (hR : ∃ u, R = M.wildcardWrap ++ u ∨ R = c!"(" ++ u) (hn : (source path M ++ R).length ≤ n) :
    wildcardPath (.of M al) vp (source path M ++ R) = .ok (together (pathMeaning path)) R := by
  have hk := hM.mark M.wildcardWrap (.inl (.inl rfl))
  have hRs : Solid R := by
    obtain ⟨u, rfl | rfl⟩ := hR
    · exact mark_solid hk u
    · rfl
  have hRm : (source path M).getLast? = some '/' → NoMark R := by
    obtain ⟨u, rfl | rfl⟩ := hR
    · exact wrap_noMark hM hlast u
    · exact fun _ => rfl
  have hRa : Apart M.wildcardWrap (source path M) R := by
    intro ha
    exfalso
    unfold Spec.endsIn at hlast
    cases hg : (source path M).getLast? with
    | none => rw [hg] at ha; cases ha
    | some c =>
      rw [hg] at ha hlast
      simp only [Option.any_some, Spec.Marks.touches, Bool.or_eq_false_iff] at ha hlast
      rw [ha] at hlast
      cases hlast.1
  unfold wildcardPath
  rw [path_skip hM h hne hRs hRm]
  have hl := path_loop hM (u := R) (n := n) (mean := pathMean)
    (stop := fun s => (s.dropWhile isWs).head? == some '(')
    (f := fun s =>
      P.or (wildcardVariableAccess (.of M al) vp s)
        (P.or (variantsTok (.of M al) vp s)
          (P.or (literal M.wildcardWrap (ParserCfg.of M al).wildcardSpecial s)
            (literal M.wildcardWrap (ParserCfg.of M al).variantSpecial s))))
    (fun p r h hr hs hr' hn => path_piece hM hv p r h hr hs hr' hn) hRs ?_ ?_ path ((source path M ++ R).length + 1) h
    hRa hRm hn (by rw [List.length_append]; omega)
  · change (many _ _ _ _).bind _ = _
    refine Eq.trans (congrArg (fun x => P.bind x _) hl) ?_
    rw [P.ok_bind, if_neg (by simpa using hne), seqCmd_eq, pathMeaning_eq]
  · obtain ⟨u, rfl | rfl⟩ := hR
    · exact .inr (.inr (List.isPrefixOf_iff_prefix.2 (List.prefix_append _ _)))
    · refine .inr (.inl ?_)
      simp only [List.cons_append, List.head?_cons, Option.any_some, exOf_eq, List.contains_iff_mem, Place.special]
      simp
  · obtain ⟨u, rfl | rfl⟩ := hR
    · right
      unfold wildcardVariableAccess
      have hs := hRs.skip
      have hst : ∀ ex, Stops M.wildcardWrap ex (M.wildcardWrap ++ u) :=
        fun ex => .inr (.inr (List.isPrefixOf_iff_prefix.2 (List.prefix_append _ _)))
      rw [access_fail (by rw [hs]; exact clash_prefix (clash_symm (hM.apart4 _ (.inr (.inl rfl))))),
        variants_fail (by rw [hs]; exact clash_prefix (clash_symm (hM.apart4 _ (.inl rfl)))), P.fail_bind, P.fail_or,
        P.fail_or, literal_fail (by rw [hs]; exact hst _), literal_fail (by rw [hs]; exact hst _)]
      rfl
    · left; rfl

/-! ## Parameters -/

theorem splitChar_cons (w r : Str) (h : ',' ∉ w) :
    splitChar ',' (w ++ (',' :: r)) = w :: splitChar ',' r := by
  induction w with
  | nil => simp [splitChar, splitAt1]
  | cons c w ih =>
    simp only [List.mem_cons, not_or] at h
    have ih := ih h.2
    simp only [splitChar] at ih
    simp only [splitChar, List.cons_append, splitAt1, beq_iff_eq, Ne.symm h.1, if_false, ih, consHead]

theorem splitChar_one (w : Str) (h : ',' ∉ w) : splitChar ',' w = [w] := by
  induction w with
  | nil => rfl
  | cons c w ih =>
    simp only [List.mem_cons, not_or] at h
    have ih := ih h.2
    simp only [splitChar] at ih
    simp only [splitChar, splitAt1, beq_iff_eq, Ne.symm h.1, if_false, ih, consHead]

theorem param_not_mem {nm : Str} {v : List Piece} (h : Spec.paramOk nm (source v M) = true) :
    ',' ∉ (Param.mk nm v).source M ∧ ')' ∉ (Param.mk nm v).source M ∧ '=' ∉ nm := by
  simp only [Spec.paramOk, Bool.and_eq_true] at h
  obtain ⟨⟨⟨⟨⟨⟨h1, h2⟩, -⟩, -⟩, -⟩, -⟩, -⟩ := h
  rw [List.all_eq_true] at h1 h2
  rw [Param.source]
  simp only [List.mem_append, List.mem_singleton, not_or]
  refine ⟨⟨⟨?_, by decide⟩, ?_⟩, ⟨⟨?_, by decide⟩, ?_⟩, ?_⟩
  all_goals intro hm
  · have := h1 _ hm; simp at this
  · have := h2 _ hm; simp at this
  · have := h1 _ hm; simp at this
  · have := h2 _ hm; simp at this
  · have := h1 _ hm; simp at this

theorem params_cons {nm : Str} {v : List Piece} {ps : List Param}
    (h : paramsOk (.mk nm v :: ps) M = true) :
    Spec.ok .param v M = true ∧ Spec.paramOk nm (source v M) = true ∧
      nm ∉ ps.map Param.name ∧ paramsOk ps M = true := by
  rw [paramsOk] at h
  simp only [Bool.and_eq_true, Bool.not_eq_true'] at h
  refine ⟨h.1.1.1, h.1.1.2, ?_, h.2⟩
  have := h.1.2
  simpa using this

theorem param_split : ∀ {ps : List Param} {p : Param}, paramsOk (p :: ps) M = true →
    splitChar ',' (p.source M ++ paramsSource ps M) = (p :: ps).map (Param.source · M)
  | [], ⟨nm, v⟩, h => by
    rw [paramsSource, List.append_nil, splitChar_one _ (param_not_mem (params_cons h).2.1).1]
    rfl
  | q :: qs, ⟨nm, v⟩, h => by
    rw [paramsSource]
    simp only [List.cons_append, List.nil_append]
    rw [splitChar_cons _ _ (param_not_mem (params_cons h).2.1).1, param_split (params_cons h).2.2.2]
    rfl

theorem params_no_paren : ∀ {ps : List Param}, paramsOk ps M = true → ')' ∉ paramsSource ps M
  | [], _ => by rw [paramsSource]; simp
  | ⟨nm, v⟩ :: ps, h => by
    rw [paramsSource]
    simp only [List.mem_append, not_or, List.mem_singleton]
    exact ⟨⟨by decide, (param_not_mem (params_cons h).2.1).2.1⟩, params_no_paren (params_cons h).2.2.2⟩

theorem parseSpec_ok {pv : Str → P Cmd} (hp : ReadsAll M n pv) : ∀ {ps : List Param},
    paramsOk ps M = true → (∀ p ∈ ps, (p.source M).length < n) →
    parseSpec pv (ps.map (Param.source · M)) = .ok (paramsMeaning ps) []
  | [], _, _ => by rw [paramsMeaning]; rfl
  | ⟨nm, v⟩ :: ps, h, hl => by
    obtain ⟨h1, h2, -, h4⟩ := params_cons h
    have hl1 := hl _ List.mem_cons_self
    have hne := (param_not_mem h2).2.2
    have hk : ((Param.mk nm v).source M).takeWhile (· ≠ '=') = nm := by
      rw [Param.source, List.append_assoc]
      refine takeWhile_all_append ?_ rfl
      rw [List.all_eq_true]
      intro c hc
      rw [decide_eq_true_eq]
      rintro rfl
      exact hne hc
    have hdrop : ((Param.mk nm v).source M).drop (nm.length + 1) = source v M := by
      rw [Param.source, List.append_assoc, List.drop_append]
      simp
    simp only [Spec.paramOk, Bool.and_eq_true, Bool.not_eq_true'] at h2
    obtain ⟨⟨⟨⟨⟨⟨-, -⟩, s1⟩, s2⟩, s3⟩, s4⟩, -⟩ := h2
    rw [Param.source] at hl1
    have hlv : (source v M).length < n := by
      simp only [List.length_append] at hl1; omega
    obtain ⟨r, hr⟩ := hp v h1 hlv
    rw [List.map_cons]
    unfold parseSpec
    dsimp only
    rw [hk, hdrop, strip_trimmed s3 s4, hr, P.ok_bind,
      parseSpec_ok hp h4 (fun p hp => hl p (List.mem_cons_of_mem _ hp)), P.ok_bind,
      strip_trimmed s1 s2, paramsMeaning]
    rfl

theorem dict_set_new {α : Type} : ∀ (d : Dict α) (k : Str) (v : α), k ∉ d.map Prod.fst →
    Dict.set d k v = d ++ [(k, v)]
  | [], _, _, _ => rfl
  | (k', v') :: d, k, v, h => by
    simp only [List.map_cons, List.mem_cons, not_or] at h
    unfold Dict.set
    rw [if_neg (Ne.symm h.1), dict_set_new d k v h.2]
    rfl

theorem dict_update_new {α : Type} : ∀ (ps : List (Str × α)) (d : Dict α),
    (ps.map Prod.fst).Nodup → (∀ k ∈ ps.map Prod.fst, k ∉ d.map Prod.fst) → Dict.update d ps = d ++ ps
  | [], d, _, _ => by simp [Dict.update]
  | (k, v) :: ps, d, h, hd => by
    rw [List.map_cons, List.nodup_cons] at h
    have h1 := dict_update_new ps (d ++ [(k, v)]) h.2 (by
      intro k' hk'
      rw [List.map_append, List.mem_append, not_or]
      refine ⟨hd k' (List.mem_cons_of_mem _ hk'), ?_⟩
      simp only [List.map_cons, List.map_nil, List.mem_singleton]
      rintro rfl
      exact h.1 hk')
    unfold Dict.update at h1 ⊢
    rw [List.foldl_cons]
    dsimp only
    rw [dict_set_new d k v (hd k List.mem_cons_self), h1, List.append_assoc]
    rfl

theorem params_names : ∀ ps : List Param,
    (paramsMeaning ps).map Prod.fst = ps.map Param.name
  | [] => by rw [paramsMeaning]; rfl
  | ⟨nm, v⟩ :: ps => by rw [paramsMeaning, List.map_cons, params_names ps]; rfl

theorem params_nodup : ∀ {ps : List Param}, paramsOk ps M = true →
    ((paramsMeaning ps).map Prod.fst).Nodup
  | [], _ => by rw [paramsMeaning]; exact List.nodup_nil
  | ⟨nm, v⟩ :: ps, h => by
    rw [paramsMeaning, List.map_cons, List.nodup_cons]
    refine ⟨?_, params_nodup (params_cons h).2.2.2⟩
    rw [params_names]
    exact (params_cons h).2.2.1

theorem dict_params {ps : List Param} (h : paramsOk ps M = true) :
    Dict.update [] (paramsMeaning ps) = paramsMeaning ps := by
  rw [dict_update_new _ _ (params_nodup h) (by simp)]
  rfl

theorem params_length : ∀ {ps : List Param}, ∀ p ∈ ps, (p.source M).length ≤ (paramsSource ps M).length
  | q :: qs, p, hp => by
    rw [paramsSource]
    rcases List.mem_cons.1 hp with rfl | hp
    · simp only [List.length_append]; omega
    · have := params_length p hp
      simp only [List.length_append]; omega

/-- Nothing is skipped before a parameter. -/
theorem param_skip {nm : Str} {v : List Piece} (h : Spec.paramOk nm (source v M) = true) (R : Str) :
    skip ((Param.mk nm v).source M ++ R) = (Param.mk nm v).source M ++ R := by
  rw [Param.source]; simp only [List.append_assoc]
  simp only [Spec.paramOk, Bool.and_eq_true, Bool.not_eq_true', markedLine, Bool.or_eq_false_iff] at h
  cases nm with
  | nil => exact Solid.skip rfl
  | cons c nm =>
    refine skip_none (comment_unmarked h.2.1 ?_ fun _ => rfl)
    have h1 := h.1.1.1.1.2
    simp only [Spec.beginsWith, List.head?_cons, Option.any_some] at h1
    rw [List.all_cons, Bool.and_eq_false_iff]
    left
    rw [Bool.eq_false_iff] at h1 ⊢
    intro hw
    apply h1
    simp only [isWs, Bool.or_eq_true, beq_iff_eq] at hw
    rcases hw with ((rfl | rfl) | rfl) | rfl <;> decide

theorem wildcardCmd_eq (m : Option Method) (c : Cmd) (vars : List (Str × Cmd)) :
    wildcardCmd m c vars = .wild (Spec.pathOf c) m vars := by
  cases c <;> rfl

include hM in
theorem wild_ok (hv : Reads M n vp) {pv : Str → P Cmd} (hp : ReadsAll M n pv) {m : Option Method}
    {path : List Piece} {ps : List Param} {s u : Str} {l : Place}
    (h : (Piece.wild m path ps).ok l M = true)
    (hs : skip s = (Piece.wild m path ps).source M ++ u)
    (hn : ((Piece.wild m path ps).source M ++ u).length ≤ n) :
    wildcardTok (.of M al) vp pv s = .ok (Piece.wild m path ps).meaning u := by
  rw [Piece.ok] at h
  simp only [Bool.and_eq_true, bne_iff_ne, ne_eq, Bool.not_eq_true', List.length_eq_zero_iff,
    Spec.endsIn, Spec.beginsWith] at h
  obtain ⟨⟨⟨⟨⟨-, hne⟩, hpath⟩, hlast⟩, hsym⟩, hps⟩ := h
  have hk := hM.mark M.wildcardWrap (.inl (.inl rfl))
  have hkl := List.length_pos_iff.2 (markOk_cases hk).1
  -- the text after the path
  obtain ⟨R, hR, hsrc⟩ : ∃ R, (R = match ps with
      | [] => M.wildcardWrap ++ u
      | p :: ps => c!"(" ++ ((p.source M ++ paramsSource ps M) ++ (c!")" ++ (M.wildcardWrap ++ u)))) ∧
      (Piece.wild m path ps).source M ++ u =
        M.wildcardWrap ++ (Spec.methodSource m ++ (source path M ++ R)) := by
    cases ps with
    | nil => refine ⟨_, rfl, ?_⟩; simp [Piece.source]
    | cons p ps => refine ⟨_, rfl, ?_⟩; simp [Piece.source]
  rw [hsrc] at hs hn
  simp only [List.length_append] at hn
  have hRs : ∃ u, R = M.wildcardWrap ++ u ∨ R = c!"(" ++ u := by
    cases ps with
    | nil => exact ⟨_, .inl hR⟩
    | cons p ps => exact ⟨_, .inr hR⟩
  have hRS : Solid R := by
    cases ps with
    | nil => rw [hR]; exact mark_solid hk u
    | cons p ps => rw [hR]; rfl
  have hRm : (source path M).getLast? = some '/' → NoMark R := by
    cases ps with
    | nil => rw [hR]; exact wrap_noMark hM hlast u
    | cons p ps => rw [hR]; exact fun _ => rfl
  have hpsk := path_skip hM hpath hne hRS hRm
  unfold wildcardTok
  show (tok M.wildcardWrap _).bind _ = _
  rw [tok_ok M.wildcardWrap hs, P.ok_bind]
  have hsampler : (samplerTok (Spec.methodSource m ++ (source path M ++ R))).opt
      (skip (Spec.methodSource m ++ (source path M ++ R))) = .ok m (source path M ++ R) := by
    cases m with
    | some m => rw [samplerTok_ok (method_solid m _).skip]; rfl
    | none =>
      rw [show Spec.methodSource none = [] from rfl, List.nil_append, samplerTok_fail, hpsk]
      · rfl
      · rw [hpsk]
        simp only [Option.isSome_none, Bool.false_or, Bool.not_eq_true'] at hsym
        have hsn := source_ne_nil' hM hpath hne
        cases hs : source path M with
        | nil => exact absurd hs hsn
        | cons c cs => rw [hs] at hsym; exact hsym
  rw [hsampler, P.ok_bind, wildcardPath_ok hM hv hpath hne hlast hRs
    (by simp only [List.length_append]; omega), P.ok_bind]
  have hend : skip (M.wildcardWrap ++ u) = M.wildcardWrap ++ u := (mark_solid hk u).skip
  cases ps with
  | nil =>
    dsimp only at hR
    subst hR
    have hspec : (specTok (M.wildcardWrap ++ u)).opt (skip (M.wildcardWrap ++ u)) = .ok none (M.wildcardWrap ++ u) := by
      unfold specTok
      rw [optWs_solid (u := M.wildcardWrap ++ u) (mark_solid hk u),
        tok_fail (by rw [hend]; exact char_prefix (mark_not_colon hM (.inl (.inl rfl)) (by decide) u)), hend]
      rfl
    rw [hspec, P.ok_bind]
    show (tok M.wildcardWrap _).bind _ = _
    rw [tok_ok M.wildcardWrap hend, P.ok_bind]
    dsimp only
    rw [wildcardCmd_eq, Piece.meaning, paramsMeaning]
  | cons p ps =>
    dsimp only at hR
    subst hR
    obtain ⟨nm, v⟩ := p
    have hpp := params_cons hps
    have hnp : (((Param.mk nm v).source M ++ paramsSource ps M)).all (· ≠ ')') = true := by
      rw [List.all_eq_true]
      intro c hcm
      rw [decide_eq_true_eq]
      rintro rfl
      rw [List.mem_append] at hcm
      rcases hcm with hcm | hcm
      · exact (param_not_mem hpp.2.1).2.1 hcm
      · exact params_no_paren hpp.2.2.2 hcm
    have hspec : specTok (c!"(" ++ (((Param.mk nm v).source M ++ paramsSource ps M) ++
        (c!")" ++ (M.wildcardWrap ++ u)))) =
        .ok ((Param.mk nm v).source M ++ paramsSource ps M) (M.wildcardWrap ++ u) := by
      have hsk : skip (((Param.mk nm v).source M ++ paramsSource ps M) ++ (c!")" ++ (M.wildcardWrap ++ u))) =
          ((Param.mk nm v).source M ++ paramsSource ps M) ++ (c!")" ++ (M.wildcardWrap ++ u)) := by
        rw [List.append_assoc]; exact param_skip hpp.2.1 _
      unfold specTok
      rw [optWs_solid (u := c!"(" ++ (((Param.mk nm v).source M ++ paramsSource ps M) ++
        (c!")" ++ (M.wildcardWrap ++ u)))) rfl, tok_ok c!"(" (s := c!"(" ++ (((Param.mk nm v).source M ++ paramsSource ps M) ++
        (c!")" ++ (M.wildcardWrap ++ u)))) (Solid.skip rfl), P.ok_bind, hsk]
      dsimp only
      rw [takeWhile_all_append hnp rfl, List.drop_left,
        tok_ok c!")" (s := c!")" ++ (M.wildcardWrap ++ u)) (Solid.skip rfl), P.ok_bind, if_neg]
      rw [Param.source]
      simp
    rw [hspec]
    simp only [P.opt, P.ok_bind]
    show (tok M.wildcardWrap _).bind _ = _
    rw [tok_ok M.wildcardWrap hend, P.ok_bind]
    rw [param_split hps, parseSpec_ok hp hps, P.ok_bind, dict_params hps, wildcardCmd_eq, Piece.meaning]
    intro q hq
    simp only [List.length_append, List.length_cons, List.length_nil] at hn
    rcases List.mem_cons.1 hq with rfl | hq
    · omega
    · have := params_length (M := M) q hq
      omega

/-! ## Whole templates -/

include hM in
theorem text_fails {l : Place} {s t r : Str} (h : Spec.textOk l t M = true)
    (hr : TextStops M.wildcardWrap (exOf M al l) t r) (hs : skip s = t ++ r) :
    ∀ d, Begins M d → d.isPrefixOf (skip s) = false := by
  intro d hd
  rw [hs]
  have hp := (text_plain h).1
  rcases hd with rfl | hd
  · simp only [Spec.plain, Bool.and_eq_true, Bool.not_eq_true', bne_iff_ne, ne_eq] at hp
    exact text_not_wild hp.1.1 hp.2 hr.2
  · exact text_heads hp hd (markOk_cases (hM.mark d (.inl (.inr hd)))).1

include hM in
theorem variantChunk_text {pv : Str → P Cmd} (t s r : Str) (h : Spec.textOk .inside t M = true)
    (hr : TextStops M.wildcardWrap (exOf M al .inside) t r) (hs : skip s = t ++ r) :
    variantChunk (.of M al) vp pv s = literal M.wildcardWrap (exOf M al .inside) s := by
  have e := text_fails hM h hr hs
  unfold variantChunk variableAccess
  rw [access_fail (e _ (.inr (.inr (.inl rfl)))), variants_fail (e _ (.inr (.inl rfl))),
    wrap_fail (e _ (.inr (.inr (.inr rfl)))), wild_fail (e _ (.inl rfl))]
  rfl

include hM in
theorem chunk_text {pv : Str → P Cmd} {l : Place} (hl : l = .top ∨ l = .param) (t s r : Str)
    (h : Spec.textOk l t M = true) (hr : TextStops M.wildcardWrap (exOf M al l) t r) (hs : skip s = t ++ r) :
    chunk (.of M al) vp pv s = literal M.wildcardWrap (exOf M al l) s := by
  have e := text_fails hM h hr hs
  unfold chunk variableAccess
  rw [assign_fail (e _ (.inr (.inr (.inl rfl)))), access_fail (e _ (.inr (.inr (.inl rfl)))),
    variants_fail (e _ (.inr (.inl rfl))), wrap_fail (e _ (.inr (.inr (.inr rfl)))), wild_fail (e _ (.inl rfl))]
  rcases hl with rfl | rfl <;> rfl

include hM in
theorem variantChunk_ok (hv : Reads M n vp) {pv : Str → P Cmd} (hp : ReadsAll M n pv) (p : Piece) (s r : Str)
    (hpr : Piece.Proper p) (h : p.ok .inside M = true) (hs : skip s = p.source M ++ r) (hn : (skip s).length ≤ n) :
    variantChunk (.of M al) vp pv s = .ok p.meaning r := by
  rw [hs] at hn
  unfold variantChunk variableAccess
  cases p with
  | text t => exact hpr.elim
  | note t => exact hpr.elim
  | choice w m b o more =>
    have h1 : M.variableStart.isPrefixOf (skip s) = false := by
      rw [hs, Piece.source]; simp only [List.append_assoc]; exact clash_prefix (clash_symm hM.apart1)
    have h2 : M.wrapStart.isPrefixOf (skip s) = false := by
      rw [hs, Piece.source]; simp only [List.append_assoc]; exact clash_prefix (clash_symm hM.apart2)
    rw [access_fail h1, wrap_fail h2, P.fail_bind, P.fail_or, P.fail_or, variantsTok_ok hM hv h hs hn]
    rfl
  | wild m path ps =>
    have h0 : ∀ d, Opening M d → d.isPrefixOf (skip s) = false := by
      intro d hd
      rw [hs]
      cases ps <;> rw [Piece.source] <;> simp only [List.append_assoc] <;>
        exact clash_prefix (clash_symm (hM.apart4 d hd))
    have h1 := h0 _ (.inr (.inl rfl))
    have h2 := h0 _ (.inr (.inr rfl))
    have h3 := h0 _ (.inl rfl)
    rw [access_fail h1, wrap_fail h2, variants_fail h3, P.fail_bind, P.fail_or, P.fail_or,
      P.fail_or, wild_ok hM hv hp h hs hn]
    rfl
  | get w1 nm w2 =>
    rw [accessTok_get hM h hs, P.ok_bind, P.ok_or, Piece.meaning]
  | getD w1 nm w2 w3 d =>
    rw [accessTok_getD hM hv h hs hn, P.ok_bind, P.ok_or, Piece.meaning]
    rfl
  | set w1 nm w2 k i w3 v => rw [Piece.ok] at h; simp at h
  | wrap w1 a w2 b =>
    have h1 : M.variableStart.isPrefixOf (skip s) = false := by
      rw [hs, Piece.source]; simp only [List.append_assoc]; exact clash_prefix hM.apart3
    rw [access_fail h1, P.fail_bind, P.fail_or, wrap_ok hM hv h hs hn]
    rfl

include hM in
theorem chunk_ok (hv : Reads M n vp) {pv : Str → P Cmd} (hp : ReadsAll M n pv) {l : Place} (p : Piece) (s r : Str)
    (hpr : Piece.Proper p) (h : p.ok l M = true) (hs : skip s = p.source M ++ r) (hn : (skip s).length ≤ n) :
    chunk (.of M al) vp pv s = .ok p.meaning r := by
  rw [hs] at hn
  unfold chunk variableAccess
  cases p with
  | text t => exact hpr.elim
  | note t => exact hpr.elim
  | choice w m b o more =>
    have h1 : M.variableStart.isPrefixOf (skip s) = false := by
      rw [hs, Piece.source]; simp only [List.append_assoc]; exact clash_prefix (clash_symm hM.apart1)
    have h2 : M.wrapStart.isPrefixOf (skip s) = false := by
      rw [hs, Piece.source]; simp only [List.append_assoc]; exact clash_prefix (clash_symm hM.apart2)
    rw [assign_fail h1, access_fail h1, wrap_fail h2, P.fail_bind, P.fail_or, P.fail_or,
      P.fail_or, variantsTok_ok hM hv h hs hn]
    rfl
  | wild m path ps =>
    have h0 : ∀ d, Opening M d → d.isPrefixOf (skip s) = false := by
      intro d hd
      rw [hs]
      cases ps <;> rw [Piece.source] <;> simp only [List.append_assoc] <;>
        exact clash_prefix (clash_symm (hM.apart4 d hd))
    have h1 := h0 _ (.inr (.inl rfl))
    have h2 := h0 _ (.inr (.inr rfl))
    have h3 := h0 _ (.inl rfl)
    rw [assign_fail h1, access_fail h1, wrap_fail h2, variants_fail h3, P.fail_bind, P.fail_or,
      P.fail_or, P.fail_or, P.fail_or, wild_ok hM hv hp h hs hn]
    rfl
  | get w1 nm w2 =>
    have hf : variableAssignment (.of M al) vp s = .fail := by
      have h' := h
      rw [Piece.ok] at h'
      simp only [Bool.and_eq_true] at h'
      rw [Piece.source] at hs
      simp only [List.append_assoc] at hs
      exact assign_fail_get hM h'.1.1 h'.2 h'.1.2 (.inr ⟨_, rfl⟩) hs
    rw [hf, P.fail_or, accessTok_get hM h hs, P.ok_bind, P.ok_or, Piece.meaning]
  | getD w1 nm w2 w3 d =>
    have hf : variableAssignment (.of M al) vp s = .fail := by
      have h' := h
      rw [Piece.ok] at h'
      simp only [Bool.and_eq_true] at h'
      rw [Piece.source] at hs
      simp only [List.append_assoc] at hs
      exact assign_fail_get hM h'.1.1.1.1.1.1.2 h'.1.1.1.2 h'.1.1.1.1.1.2 (.inl ⟨_, rfl⟩) hs
    rw [hf, P.fail_or, accessTok_getD hM hv h hs hn, P.ok_bind, P.ok_or, Piece.meaning]
    rfl
  | set w1 nm w2 k i w3 v => rw [assign_ok hM hv h hs hn]; rfl
  | wrap w1 a w2 b =>
    have h1 : M.variableStart.isPrefixOf (skip s) = false := by
      rw [hs, Piece.source]; simp only [List.append_assoc]; exact clash_prefix hM.apart3
    rw [assign_fail h1, access_fail h1, P.fail_bind, P.fail_or, P.fail_or, wrap_ok hM hv h hs hn]
    rfl

/-- Nothing is read at the end of a part. -/
theorem variantChunk_end {pv : Str → P Cmd} {s u : Str} (hu : Ends M u) (hs : skip s = u) :
    variantChunk (.of M al) vp pv s = .fail := by
  unfold variantChunk variableAccess
  rw [← hs] at hu
  rw [access_fail (hu.begins _ (.inr (.inr (.inl rfl)))), wrap_fail (hu.begins _ (.inr (.inr (.inr rfl)))),
    variants_fail (hu.begins _ (.inr (.inl rfl))), wild_fail (hu.begins _ (.inl rfl))]
  have := literal_fail (hu.stops (al := al))
  simp only [P.fail_bind, P.fail_or]
  exact this

include hM in
theorem variantPrompt_ok (hv : Reads M n vp) {pv : Str → P Cmd} (hp : ReadsAll M n pv) :
    Reads M (n + 1) (variantPrompt (.of M al) vp pv) := by
  intro ps u s h hu hs hn
  have hl := skip_length s
  obtain ⟨r, hr1, hr2⟩ := loop hM (l := .inside) (n := n) (f := variantChunk (.of M al) vp pv)
    (by rintro ⟨⟩) hu.solid hu.stops hu.apart hu.noMark
    (fun p s r hpr h hs hn => variantChunk_ok hM hv hp p s r hpr h hs hn)
    (fun t s r h hr hs => variantChunk_text hM t s r h hr hs)
    (fun s hs => variantChunk_end hu hs) ps.length ps (s.length + 1) (skip s) (Nat.le_refl _) h
    (by rw [skip_skip]; exact hs) (by rw [skip_skip]; omega) (by rw [skip_skip]; omega)
  unfold variantPrompt
  rw [hr1, P.ok_bind, seqCmd_eq]
  exact ⟨r, rfl, hr2⟩

include hM in
/-- A template of letters and digits only is plain text. -/
theorem alnum_text {l : Place} {ps : List Piece} (h : Spec.ok l ps M = true) (hne : source ps M ≠ [])
    (ha : (source ps M).all (ParserCfg.of M al).isAlnum = true) : ∃ t, ps = [.text t] := by
  have hno : ∀ {q : Piece} {s : Str}, q.ok l M = true → (∀ t, q ≠ .text t) →
      (q.source M ++ s).all (ParserCfg.of M al).isAlnum = false := by
    intro q s hok hq
    by_cases hp : Piece.Proper q
    · obtain ⟨d, r, e, hd⟩ := proper_begins (M := M) q hp
      obtain ⟨c, d', rfl, -⟩ := markOk_head (hM.mark d (.inl hd))
      have h1 := hM.head _ (.inl hd)
      simp only [List.head?_cons, Option.any_some, Bool.or_eq_false_iff, letter_eq, digit_eq] at h1
      rw [e]
      simp only [List.cons_append, List.all_cons, Bool.and_eq_false_iff]
      left
      unfold ParserCfg.isAlnum
      split
      · exact Bool.or_eq_false_iff.2 h1.1.1
      · rename_i hlt
        have h2 := h1.1.2
        rw [decide_eq_true (by omega), Bool.true_and] at h2
        exact h2
    · cases q with
      | text t => exact absurd rfl (hq t)
      | note c =>
        rw [Piece.ok] at hok
        simp only [Bool.and_eq_true] at hok
        rw [Piece.source]
        cases c with
        | nil => exact absurd rfl (comments_ne hok.1)
        | cons c cs =>
          have hc : isWs c = true ∨ c = '#' ∨ c = '/' := by
            have h1 := hok.1
            simp only [Spec.comments, Spec.openEnded, Bool.or_eq_true, beq_iff_eq, read_cons] at h1
            by_cases e1 : isWs c = true
            · exact .inl e1
            by_cases e2 : c = '#'
            · exact .inr (.inl e2)
            by_cases e3 : c = '/'
            · exact .inr (.inr e3)
            rw [← blank_eq] at e1
            simp [Reader.step, e1, e2, e3] at h1
          rw [List.cons_append, List.all_cons, Bool.and_eq_false_iff]
          left
          rcases hc with hc | rfl | rfl
          · simp only [isWs, Bool.or_eq_true, beq_iff_eq] at hc
            rcases hc with ((rfl | rfl) | rfl) | rfl <;> rfl
          · rfl
          · rfl
      | _ => exact absurd trivial hp
  cases ps with
  | nil => rw [source] at hne; exact absurd rfl hne
  | cons p ps =>
    obtain ⟨h1, h2, h3⟩ := ok_cons h
    by_cases ht : ∃ t, p = .text t
    · obtain ⟨t, rfl⟩ := ht
      cases ps with
      | nil => exact ⟨t, rfl⟩
      | cons q qs =>
        rw [source, source, List.all_append, Bool.and_eq_true, hno (ok_cons h2).1] at ha
        · simp at ha
        · rintro t' rfl
          simp [Spec.follows] at h3
    · rw [source, hno h1 (fun t e => ht ⟨t, e⟩)] at ha
      cases ha

include hM in
theorem chunk_end {pv : Str → P Cmd} {s : Str} (hs : skip s = []) : chunk (.of M al) vp pv s = .fail := by
  have hk : ∀ d, Begins M d → d.isPrefixOf (skip s) = false := by
    intro d hd
    obtain ⟨c, r, rfl, -⟩ := markOk_head (hM.mark d (.inl hd))
    rw [hs]
    rfl
  unfold chunk variableAccess
  rw [assign_fail (hk _ (.inr (.inr (.inl rfl)))), access_fail (hk _ (.inr (.inr (.inl rfl)))),
    wrap_fail (hk _ (.inr (.inr (.inr rfl)))), variants_fail (hk _ (.inr (.inl rfl))), wild_fail (hk _ (.inl rfl))]
  have : literal M.wildcardWrap (ParserCfg.of M al).special s = .fail := literal_fail (by rw [hs]; exact .inl rfl)
  simp only [P.fail_bind, P.fail_or]
  exact this

include hM in
/-- A whole template, or the value of a parameter. -/
theorem parseTok_ok (hv : Reads M n vp) {pv : Str → P Cmd} (hp : ReadsAll M n pv) {l : Place}
    (hl : l = .top ∨ l = .param) {ps : List Piece} (h : Spec.ok l ps M = true)
    (hn : (source ps M).length < n + 1) :
    parseTok (.of M al) vp pv (source ps M) = .ok (meaning ps) [] := by
  unfold parseTok
  split
  · rename_i ha
    simp only [Bool.and_eq_true, Bool.not_eq_true', List.isEmpty_eq_false_iff] at ha
    obtain ⟨t, rfl⟩ := alnum_text hM h ha.1 ha.2
    have e : source [.text t] M = t := by rw [source, source, Piece.source, List.append_nil]
    rw [e, meaning, meanings, meanings]
    rfl
  · have hL := skip_length (source ps M)
    have hstop : Stops M.wildcardWrap (exOf M al l) [] := .inl rfl
    obtain ⟨r, hr1, hr2⟩ := loop hM (l := l) (n := n) (u := []) (f := chunk (.of M al) vp pv)
      (fun _ => rfl) rfl hstop rfl rfl
      (fun p s r hpr h hs hn => chunk_ok hM hv hp p s r hpr h hs hn)
      (fun t s r h hr hs => chunk_text hM hl t s r h hr hs)
      (fun s hs => chunk_end hM hs) ps.length ps ((source ps M).length + 1) (skip (source ps M)) (Nat.le_refl _) h
      (by rw [skip_skip, List.append_nil]) (by rw [skip_skip]; omega) (by rw [skip_skip]; omega)
    unfold promptTok
    rw [hr1, P.ok_bind, if_pos (optWs_of_skip hr2 rfl), seqCmd_eq]
    rfl

include hM in
/-- Every depth greater than the length of the text is enough. -/
theorem parsers_read : ∀ n : Nat,
    Reads M n (parsers (.of M al) n).1 ∧ ReadsAll M n (parsers (.of M al) n).2
  | 0 => ⟨fun _ _ _ _ _ _ h => absurd h (Nat.not_lt_zero _), fun _ _ h => absurd h (Nat.not_lt_zero _)⟩
  | n + 1 =>
    have ih := parsers_read n
    ⟨variantPrompt_ok hM ih.1 ih.2, fun _ h hn => ⟨[], parseTok_ok hM ih.1 ih.2 (.inr rfl) h hn⟩⟩

include hM in
/-- Whole templates. -/
theorem parsers_top (n : Nat) {ps : List Piece} (h : Spec.ok .top ps M = true)
    (hn : (source ps M).length < n) : (parsers (.of M al) n).2 (source ps M) = .ok (meaning ps) [] := by
  cases n with
  | zero => exact absurd hn (Nat.not_lt_zero _)
  | succ n => exact parseTok_ok hM (parsers_read hM n).1 (parsers_read hM n).2 (.inl rfl) h hn

end
end Verif
