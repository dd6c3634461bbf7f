import Verif.Proofs.ParserSafe
/-! # The parts of a template are parsed as they should be -/

namespace Verif
open Spec (blank digit letter natOf digitVal marked markedLine Reader calm Piece Opt Param Place source
  optsSource paramsSource optsMeaning paramsMeaning meanings pathMeaning meaning together optsOk paramsOk)

/-- The configuration with the given marks. -/
def ParserCfg.of (M : Spec.Marks) (al : Char → Bool) : ParserCfg where
  variantStart := M.variantStart
  variantEnd := M.variantEnd
  wildcardWrap := M.wildcardWrap
  variableStart := M.variableStart
  variableEnd := M.variableEnd
  wrapStart := M.wrapStart
  wrapEnd := M.wrapEnd
  alnum := al

theorem ParserCfg.of_default (al : Char → Bool) : ParserCfg.of {} al = .default al := rfl

/-! ## Marks -/

/-- A mark that begins a variant, a variable or a wrap. -/
def Opening (M : Spec.Marks) (d : Str) : Prop := d = M.variantStart ∨ d = M.variableStart ∨ d = M.wrapStart

/-- A mark that ends a variant, a variable or a wrap. -/
def Closing (M : Spec.Marks) (d : Str) : Prop := d = M.variantEnd ∨ d = M.variableEnd ∨ d = M.wrapEnd

/-- A mark that begins a part. -/
def Begins (M : Spec.Marks) (d : Str) : Prop := d = M.wildcardWrap ∨ Opening M d

/-- What is known of marks that can be used. -/
structure Fit (M : Spec.Marks) (al : Char → Bool) : Prop where
  mark : ∀ d, Begins M d ∨ Closing M d → Spec.markOk d = true
  head : ∀ d, Begins M d ∨ Closing M d →
    d.head?.any (fun c => letter c || digit c || 128 ≤ c.toNat && al c || c!":(|".contains c) = false
  apart : ∀ a b, Begins M a → Closing M b → Spec.clash a b = false
  apart1 : Spec.clash M.variantStart M.variableStart = false
  apart2 : Spec.clash M.variantStart M.wrapStart = false
  apart3 : Spec.clash M.variableStart M.wrapStart = false
  apart4 : ∀ a, Opening M a → Spec.clash M.wildcardWrap a = false
  opening : ∀ d, Opening M d → d.head?.any c!"+-.*".contains = false
  closing : ∀ d, Closing M d → d.head?.any c!"_+-.*?=~!@".contains = false
  wrapChars : ∀ c ∈ M.wildcardWrap, c ∉ c!"|$("
  wrapHeads : ∀ d, Opening M d ∨ Closing M d → d.head?.any M.wildcardWrap.contains = false
  wrapWeight : M.wildcardWrap.head?.any c!"+-.".contains = false ∨ c!"++".isPrefixOf M.wildcardWrap = true

theorem Fit.of {M : Spec.Marks} {al : Char → Bool} (h : M.usable al = true) : Fit M al := by
  simp only [Spec.Marks.usable, Bool.and_eq_true, List.all_eq_true, Bool.not_eq_true',
    Spec.beginsWith, Bool.or_eq_true] at h
  obtain ⟨⟨⟨⟨⟨⟨⟨⟨⟨h1, h2⟩, h3⟩, h4⟩, h5⟩, h6⟩, h7⟩, h8⟩, h9⟩, h10⟩ := h
  have hB : ∀ d, Begins M d ∨ Closing M d → d ∈ M.wildcardWrap :: [M.variantStart, M.variableStart, M.wrapStart] ++
      [M.variantEnd, M.variableEnd, M.wrapEnd] := by
    rintro d ((rfl | rfl | rfl | rfl) | (rfl | rfl | rfl)) <;> simp
  have hO : ∀ d, Opening M d → d ∈ [M.variantStart, M.variableStart, M.wrapStart] := by
    rintro d (rfl | rfl | rfl) <;> simp
  have hC : ∀ d, Closing M d → d ∈ [M.variantEnd, M.variableEnd, M.wrapEnd] := by
    rintro d (rfl | rfl | rfl) <;> simp
  refine ⟨fun d hd => (h1 d (hB d hd)).1, fun d hd => (h1 d (hB d hd)).2, ?_, h3, h4, h5,
    fun a ha => h6 a (hO a ha), fun d hd => h7 d (hO d hd), fun d hd => h8 d (hC d hd), ?_, ?_, h10⟩
  · intro a b ha hb
    refine h2 a ?_ b (hC b hb)
    rcases ha with rfl | ha
    · simp
    · exact List.mem_cons_of_mem _ (hO a ha)
  · intro c hc hm
    have := h9 c hc
    rw [← Bool.not_eq_true, List.contains_iff_mem] at this
    exact this (List.mem_append_left _ hm)
  · intro d hd
    rw [Bool.eq_false_iff]
    intro he
    cases hh : d.head? with
    | none => rw [hh] at he; cases he
    | some c =>
      rw [hh] at he
      simp only [Option.any_some, List.contains_iff_mem] at he
      have := h9 c he
      rw [← Bool.not_eq_true, List.contains_iff_mem] at this
      refine this (List.mem_append_right _ (List.mem_filterMap.2 ⟨d, ?_, hh⟩))
      rw [List.mem_append]
      rcases hd with hd | hd
      · exact .inl (hO d hd)
      · exact .inr (hC d hd)

theorem usable_default (al : Char → Bool) : ({} : Spec.Marks).usable al = true := by
  simp only [Spec.Marks.usable]
  generalize hq : (fun d : Str => Spec.markOk d && !Spec.beginsWith (fun c => letter c || digit c ||
    128 ≤ c.toNat && al c || c!":(|".contains c) d) = q
  have hc : ∀ d : Str, Spec.markOk d = true → d.head?.any (fun c => letter c || digit c ||
      128 ≤ c.toNat || c!":(|".contains c) = false → q d = true := by
    intro d h1 h2
    rw [← hq]
    simp only [h1, Bool.true_and, Bool.not_eq_true', Spec.beginsWith]
    cases hd : d.head? with
    | none => rfl
    | some c =>
      rw [hd] at h2
      simp only [Option.any_some, Bool.or_eq_false_iff] at h2 ⊢
      refine ⟨⟨h2.1.1, ?_⟩, h2.2⟩
      rw [h2.1.2]; rfl
  have : (c!"__" :: [c!"{", c!"${", c!"%{"] ++ [c!"}", c!"}", c!"}"]).all q = true := by
    simp only [List.cons_append, List.nil_append, List.all_cons, List.all_nil, Bool.and_true, Bool.and_eq_true]
    refine ⟨?_, ?_, ?_, ?_, ?_, ?_, ?_⟩ <;> exact hc _ (by decide) (by decide)
  rw [this]
  decide

theorem Fit.default (al : Char → Bool) : Fit {} al := .of (usable_default al)

section
variable {M : Spec.Marks} {al : Char → Bool}

theorem clash_prefix {a b u : Str} (h : Spec.clash a b = false) : a.isPrefixOf (b ++ u) = false := by
  simp only [Spec.clash, Bool.or_eq_false_iff] at h
  rw [Bool.eq_false_iff]
  intro hp
  rw [List.isPrefixOf_iff_prefix] at hp
  rcases List.prefix_or_prefix_of_prefix hp (List.prefix_append b u) with h2 | h2
  · rw [List.isPrefixOf_iff_prefix.2 h2] at h; simp at h
  · rw [List.isPrefixOf_iff_prefix.2 h2] at h; simp at h

theorem clash_symm {a b : Str} (h : Spec.clash a b = false) : Spec.clash b a = false := by
  simp only [Spec.clash, Bool.or_eq_false_iff] at h ⊢
  exact ⟨h.2, h.1⟩

theorem markOk_cases {d : Str} (h : Spec.markOk d = true) : d ≠ [] ∧
    d.all (fun c => !isWs c && c != '#' && c != '/') = true ∧ hasSub c!"$$" d = false ∧ d.getLast? ≠ some '$' := by
  simp only [Spec.markOk, Bool.and_eq_true, Bool.not_eq_true', bne_iff_ne, ne_eq, Spec.endsIn, blank_eq] at h
  refine ⟨h.1.1.1, ?_, h.1.2, ?_⟩
  · simpa using h.1.1.2
  · intro e
    have := h.2
    rw [e] at this
    simp at this

theorem markOk_head {d : Str} (h : Spec.markOk d = true) : ∃ c r, d = c :: r ∧ isWs c = false ∧ c ≠ '#' ∧ c ≠ '/' := by
  obtain ⟨h1, h2, -, -⟩ := markOk_cases h
  cases d with
  | nil => exact absurd rfl h1
  | cons c r =>
    simp only [List.all_cons, Bool.and_eq_true, Bool.not_eq_true', bne_iff_ne, ne_eq] at h2
    exact ⟨c, r, rfl, h2.1.1.1, h2.1.1.2, h2.1.2⟩

theorem mark_solid {d : Str} (h : Spec.markOk d = true) (u : Str) : Solid (d ++ u) := by
  obtain ⟨c, r, rfl, h1, h2, h3⟩ := markOk_head h
  exact solid_cons (by simp [h1, h2, h3])

theorem mark_any {d : Str} (h : Spec.markOk d = true) {q : Char → Bool} (hq : d.head?.any q = false) (u : Str) :
    (d ++ u).head?.any q = false := by
  obtain ⟨c, r, rfl, -⟩ := markOk_head h
  exact hq

theorem mark_any' {d : Str} (h : Spec.markOk d = true) {q : Char → Bool} (hq : d.head?.any q = true) (u : Str) :
    (d ++ u).head?.any q = true := by
  obtain ⟨c, r, rfl, -⟩ := markOk_head h
  exact hq

theorem mark_dollar {d : Str} (h : Spec.markOk d = true) (u : Str) : c!"$$".isPrefixOf (d ++ u) = false := by
  obtain ⟨h1, -, h3, h4⟩ := markOk_cases h
  cases d with
  | nil => exact absurd rfl h1
  | cons c d =>
    cases d with
    | nil =>
      refine dollar_prefix ?_
      rintro rfl
      exact h4 rfl
    | cons e d =>
      simp only [hasSub, Bool.or_eq_false_iff] at h3
      simpa [List.isPrefixOf] using h3.1

theorem mark_safe {d : Str} (h : Spec.markOk d = true) {u : Str}
    (hu : d.any (fun c => !isSepChar c) = true ∨ Safe u) : Safe (d ++ u) := by
  obtain ⟨-, h2, h3, h4⟩ := markOk_cases h
  exact .ofMark h2 h3 h4 hu

theorem head_imp {u : Str} {p q : Char → Bool} (h : u.head?.any p = false) (hpq : ∀ c, p c = false → q c = false) :
    u.head?.any q = false := by
  cases u with
  | nil => rfl
  | cons c u => exact hpq c h

theorem head_contains {u : Str} {p : Char → Bool} {cs : List Char} (h : u.head?.any cs.contains = false)
    (hpq : ∀ c, p c = true → c ∈ cs) : u.head?.any p = false :=
  head_imp h fun c hc => by
    rw [Bool.eq_false_iff] at hc ⊢
    exact fun hp => hc (List.contains_iff_mem.2 (hpq c hp))

theorem separator_eq (c : Char) : Spec.separator [c] = isSepChar c := by
  rw [Bool.eq_iff_iff]
  simp [Spec.separator, isSepChar, isPrintable, and_assoc]

theorem fenced_opening (h : M.fenced = true) {d : Str} (hd : Opening M d ∨ d = M.variantEnd) :
    d.any (fun c => !isSepChar c) = true := by
  rw [Spec.Marks.fenced, Bool.and_eq_true] at h
  replace h := h.1
  simp only [separator_eq, List.all_cons, List.all_nil, Bool.and_true, Bool.and_eq_true] at h
  rcases hd with (rfl | rfl | rfl) | rfl
  · exact h.1
  · exact h.2.2.1
  · exact h.2.2.2
  · exact h.2.1

/-! ## Which characters end a literal -/

/-- The characters no literal of the given place contains, as the parser sees them. -/
def exOf (M : Spec.Marks) (al : Char → Bool) : Place → Char → Bool
  | .top => (ParserCfg.of M al).special
  | .inside => (ParserCfg.of M al).variantSpecial
  | .path => (ParserCfg.of M al).wildcardSpecial
  | .param => (ParserCfg.of M al).special

theorem exOf_eq (l : Place) (c : Char) : exOf M al l c = (l.special M).contains c := by
  rw [Bool.eq_iff_iff]
  cases l <;>
    simp [exOf, ParserCfg.of, ParserCfg.special, ParserCfg.variantSpecial,
      ParserCfg.wildcardSpecial, Place.special, or_assoc]
  all_goals grind

theorem exOf_opening {d : Str} (hd : Opening M d) (hne : d ≠ []) (l : Place) (u : Str) :
    (d ++ u).head?.any (exOf M al l) = true := by
  cases d with
  | nil => exact absurd rfl hne
  | cons c d =>
    simp only [List.cons_append, List.head?_cons, Option.any_some, exOf_eq, List.contains_iff_mem, Place.special]
    rcases hd with h | h | h <;> rw [← h] <;> simp

/-- What may come after a text. -/
def TextStops (ww : Str) (ex : Char → Bool) (t u : Str) : Prop := Stops ww ex u ∧ Apart ww t u

/-- A part that is neither text nor a comment. -/
def Piece.Proper : Piece → Prop
  | .text _ => False
  | .note _ => False
  | _ => True

/-- Such parts begin with one of the marks. -/
theorem proper_head (p : Piece) (h : Piece.Proper p) :
    ∃ d s, p.source M = d ++ s ∧ (Opening M d ∨ d = M.wildcardWrap ∧ ∃ m path ps, p = .wild m path ps) := by
  cases p with
  | text t => exact h.elim
  | note t => exact h.elim
  | choice w m b o more =>
    exact ⟨_, _, by rw [Piece.source]; simp only [List.append_assoc]; rfl, .inl (.inl rfl)⟩
  | wild m path ps =>
    cases ps with
    | nil => exact ⟨_, _, by rw [Piece.source]; simp only [List.append_assoc]; rfl, .inr ⟨rfl, _, _, _, rfl⟩⟩
    | cons p ps => exact ⟨_, _, by rw [Piece.source]; simp only [List.append_assoc]; rfl, .inr ⟨rfl, _, _, _, rfl⟩⟩
  | get w1 n w2 => exact ⟨_, _, by rw [Piece.source]; simp only [List.append_assoc]; rfl, .inl (.inr (.inl rfl))⟩
  | getD w1 n w2 w3 d =>
    exact ⟨_, _, by rw [Piece.source]; simp only [List.append_assoc]; rfl, .inl (.inr (.inl rfl))⟩
  | set w1 n w2 k i w3 v =>
    exact ⟨_, _, by rw [Piece.source]; simp only [List.append_assoc]; rfl, .inl (.inr (.inl rfl))⟩
  | wrap w1 a w2 b => exact ⟨_, _, by rw [Piece.source]; simp only [List.append_assoc]; rfl, .inl (.inr (.inr rfl))⟩

theorem proper_begins (p : Piece) (h : Piece.Proper p) : ∃ d s, p.source M = d ++ s ∧ Begins M d := by
  obtain ⟨d, s, e, hd | ⟨hd, -⟩⟩ := proper_head (M := M) p h
  · exact ⟨d, s, e, .inr hd⟩
  · exact ⟨d, s, e, .inl hd⟩

theorem text_plain {l : Place} {t : Str} (h : Spec.textOk l t M = true) :
    Spec.plain l t M = true ∧ marked t = false := by
  simp only [Spec.textOk, Bool.and_eq_true, Bool.not_eq_true'] at h
  exact h.1

theorem text_ne {l : Place} {t : Str} (h : Spec.textOk l t M = true) : t ≠ [] := by
  have := (text_plain h).1
  simp only [Spec.plain, Bool.and_eq_true, bne_iff_ne] at this
  exact this.1.1

theorem comments_ne {s : Str} (h : Spec.comments s = true) : s ≠ [] := by
  rintro rfl
  exact absurd h (by decide)

theorem ok_cons {l : Place} {p : Piece} {ps : List Piece} (h : Spec.ok l (p :: ps) M = true) :
    p.ok l M = true ∧ Spec.ok l ps M = true ∧ Spec.follows l p ps M = true := by
  rw [Spec.ok] at h
  simp only [Bool.and_eq_true] at h
  exact ⟨h.1.1, h.1.2, h.2⟩

variable (hM : Fit M al)
include hM

theorem proper_any {p : Piece} (h : Piece.Proper p) (u : Str) (q : Char → Bool)
    (hq : ∀ d, Begins M d → d.head?.any q = false) : (p.source M ++ u).head?.any q = false := by
  obtain ⟨d, s, e, hd⟩ := proper_begins (M := M) p h
  rw [e, List.append_assoc]
  exact mark_any (hM.mark d (.inl hd)) (hq d hd) _

theorem proper_solid {p : Piece} (h : Piece.Proper p) (u : Str) : Solid (p.source M ++ u) := by
  obtain ⟨d, s, e, hd⟩ := proper_begins (M := M) p h
  rw [e, List.append_assoc]
  exact mark_solid (hM.mark d (.inl hd)) _

theorem proper_stops {p : Piece} (h : Piece.Proper p) (l : Place) (u : Str) :
    Stops M.wildcardWrap (exOf M al l) (p.source M ++ u) := by
  obtain ⟨d, s, e, hd | ⟨hd, -⟩⟩ := proper_head (M := M) p h
  · rw [e, List.append_assoc]
    exact .inr (.inl (exOf_opening hd (markOk_cases (hM.mark d (.inl (.inr hd)))).1 l _))
  · rw [e, List.append_assoc, hd]
    exact .inr (.inr (List.isPrefixOf_iff_prefix.2 (List.prefix_append _ _)))

theorem proper_ne {p : Piece} (h : Piece.Proper p) : p.source M ≠ [] := by
  obtain ⟨d, s, e, hd⟩ := proper_begins (M := M) p h
  rw [e]
  simp [(markOk_cases (hM.mark d (.inl hd))).1]

theorem source_ne_nil {l : Place} {p : Piece} (h : p.ok l M = true) : p.source M ≠ [] := by
  cases p with
  | text t =>
    rw [Piece.ok] at h
    rw [Piece.source]
    exact text_ne h
  | note t =>
    rw [Piece.ok] at h
    simp only [Bool.and_eq_true] at h
    rw [Piece.source]
    exact comments_ne h.1
  | _ => exact proper_ne hM trivial

/-- What the parts after a text may begin with. -/
theorem after_text {l : Place} {t : Str} {ps : List Piece} {u : Str}
    (h : Spec.ok l (.text t :: ps) M = true) (q : Char → Bool) (h0 : q '#' = false)
    (h1 : ∀ d, Opening M d → d.head?.any q = false)
    (h2 : Spec.endsIn M.touches t = false → M.wildcardWrap.head?.any q = false)
    (hu : ps = [] → u.head?.any q = false) :
    (source ps M ++ u).head?.any q = false := by
  obtain ⟨-, -, hf⟩ := ok_cons h
  cases ps with
  | nil => rw [source]; exact hu rfl
  | cons p ps =>
    rw [source, List.append_assoc]
    by_cases hp : Piece.Proper p
    · obtain ⟨d, s, e, hd | ⟨hd, m, path, pp, rfl⟩⟩ := proper_head (M := M) p hp
      · rw [e, List.append_assoc]
        exact mark_any (hM.mark d (.inl (.inr hd))) (h1 d hd) _
      · rw [e, List.append_assoc, hd]
        refine mark_any (hM.mark _ (.inl (.inl rfl))) (h2 ?_) _
        simpa [Spec.follows] using hf
    · cases p with
      | text t' => simp [Spec.follows] at hf
      | note s =>
        simp only [Spec.follows, Bool.and_eq_true, Spec.beginsWith] at hf
        rw [Piece.source]
        cases s with
        | nil => simp at hf
        | cons c s =>
          simp only [List.head?_cons, Option.any_some, beq_iff_eq] at hf
          rw [hf.1]
          exact h0
      | _ => exact absurd trivial hp

theorem after_text_mark {l : Place} {t : Str} {ps : List Piece} {u : Str}
    (h : Spec.ok l (.text t :: ps) M = true) (hu : ps = [] → t.getLast? = some '/' → NoMark u) :
    t.getLast? = some '/' → NoMark (source ps M ++ u) := by
  intro hl
  have key : ∀ d, Begins M d → d.head?.any (fun c => c == '*') = false →
      d.head?.any (fun c => c == '/' || c == '*') = false := by
    intro d hd hs
    obtain ⟨c, r, rfl, -, -, h3⟩ := markOk_head (hM.mark d (.inl hd))
    simp only [List.head?_cons, Option.any_some] at hs ⊢
    simp [hs, h3]
  refine after_text hM h _ rfl (fun d hd => key d (.inr hd) ?_) (fun ht => key _ (.inl rfl) ?_) (fun e => hu e hl)
  · refine head_contains (hM.opening d hd) ?_
    intro c hc
    rw [beq_iff_eq] at hc
    subst hc
    decide
  · rw [Spec.endsIn, hl] at ht
    simp only [Option.any_some, Spec.Marks.touches, Bool.or_eq_false_iff, beq_self_eq_true, Bool.true_and,
      Spec.beginsWith] at ht
    exact ht.2

theorem textStops {l : Place} {t : Str} {ps : List Piece} {u : Str}
    (h : Spec.ok l (.text t :: ps) M = true) (hS : Stops M.wildcardWrap (exOf M al l) u)
    (hlast : ps = [] → Apart M.wildcardWrap t u) :
    TextStops M.wildcardWrap (exOf M al l) t (source ps M ++ u) := by
  obtain ⟨-, -, hf⟩ := ok_cons h
  refine ⟨?_, fun ht => ?_⟩
  · cases ps with
    | nil => rw [source]; exact hS
    | cons p ps =>
      rw [source, List.append_assoc]
      by_cases hp : Piece.Proper p
      · exact proper_stops hM hp l _
      · cases p with
        | text t' => simp [Spec.follows] at hf
        | note s =>
          simp only [Spec.follows, Bool.and_eq_true, Spec.beginsWith] at hf
          rw [Piece.source]
          cases s with
          | nil => simp at hf
          | cons c s =>
            simp only [List.head?_cons, Option.any_some, beq_iff_eq] at hf
            rw [hf.1]
            refine .inr (.inl ?_)
            simp only [List.cons_append, List.head?_cons, Option.any_some, exOf_eq, Place.special]
            rfl
        | _ => exact absurd trivial hp
  · refine after_text hM h _ ?_ (fun d hd => hM.wrapHeads d (.inl hd)) ?_ (fun e => hlast e ht)
    · rw [Bool.eq_false_iff]
      intro hc
      rw [List.contains_iff_mem] at hc
      have := (markOk_cases (hM.mark _ (.inl (.inl rfl)))).2.1
      have := List.all_eq_true.1 this _ hc
      simp at this
    · intro hn
      exfalso
      unfold Spec.endsIn at hn
      cases hg : t.getLast? with
      | none => rw [hg] at ht; cases ht
      | some c =>
        rw [hg] at ht hn
        simp only [Option.any_some, Spec.Marks.touches, Bool.or_eq_false_iff] at hn ht
        rw [ht] at hn
        cases hn.1

/-- No comment begins where a text begins. -/
theorem text_comment {l : Place} {t : Str} {ps : List Piece} {u : Str}
    (h : Spec.ok l (.text t :: ps) M = true) (hu : Solid u)
    (hm : ps = [] → t.getLast? = some '/' → NoMark u) : comment (t ++ (source ps M ++ u)) = none := by
  obtain ⟨ht, -, hf⟩ := ok_cons h
  rw [Piece.ok] at ht
  by_cases hb : t.all isWs = false
  · exact comment_unmarked (text_plain ht).2 hb (after_text_mark hM h hm)
  · have hb : t.all isWs = true := by simpa using hb
    refine Solid.blank_comment ?_ hb
    cases ps with
    | nil => rw [source]; exact hu
    | cons p ps =>
      rw [source, List.append_assoc]
      cases p with
      | text t' => simp [Spec.follows] at hf
      | note s =>
        simp only [Spec.follows, Bool.and_eq_true, Bool.not_eq_true', blank_eq] at hf
        rw [hb] at hf
        cases hf.2
      | _ => exact proper_solid hM (by trivial) _

theorem text_skip {l : Place} {t : Str} {ps : List Piece} {u : Str}
    (h : Spec.ok l (.text t :: ps) M = true) (hu : Solid u)
    (hm : ps = [] → t.getLast? = some '/' → NoMark u) :
    skip (source (.text t :: ps) M ++ u) = t ++ (source ps M ++ u) := by
  rw [source, Piece.source, List.append_assoc]
  exact skip_none (text_comment hM h hu hm)

theorem proper_skip {p : Piece} {ps : List Piece} {u : Str} (h : Piece.Proper p) :
    skip (source (p :: ps) M ++ u) = p.source M ++ (source ps M ++ u) := by
  rw [source, List.append_assoc]
  exact (proper_solid hM h _).skip

omit hM

/-- Comments and what comes after them. -/
theorem note_end {l : Place} {s : Str} {ps : List Piece} {u : Str}
    (h : Spec.ok l (.note s :: ps) M = true) (hl : l = .top → u = []) :
    ∃ ρ, Reader.out.read s = some ρ ∧ (ρ = .closed ∨ ρ = .line) ∧ LineEnd ρ (source ps M ++ u) := by
  obtain ⟨hs, -, hf⟩ := ok_cons h
  rw [Piece.ok] at hs
  simp only [Bool.and_eq_true, Spec.comments, Spec.openEnded, Bool.or_eq_true, beq_iff_eq] at hs
  rcases hs.1 with hr | hr
  · exact ⟨_, hr, .inl rfl, by rintro ⟨⟩⟩
  · refine ⟨_, hr, .inr rfl, fun _ => ?_⟩
    cases ps with
    | nil =>
      simp only [Spec.follows, Spec.openEnded, hr, beq_self_eq_true, Bool.not_true, Bool.false_or,
        beq_iff_eq] at hf
      rw [source, hl hf]
      exact .inl rfl
    | cons p ps =>
      cases p with
      | text t =>
        simp only [Spec.follows, Spec.openEnded, hr, beq_self_eq_true, Bool.not_true, Bool.false_or,
          Spec.beginsWith] at hf
        right
        rw [source, Piece.source]
        cases t with
        | nil => simp at hf
        | cons c t => simpa using hf
      | note s' => simp [Spec.follows] at hf
      | _ => simp [Spec.follows, Spec.openEnded, hr] at hf

theorem note_skip {l : Place} {s : Str} {ps : List Piece} {u : Str}
    (h : Spec.ok l (.note s :: ps) M = true) (hl : l = .top → u = []) :
    skip (source (.note s :: ps) M ++ u) = skip (source ps M ++ u) := by
  obtain ⟨ρ, h1, h2, h3⟩ := note_end h hl
  rw [source, Piece.source, List.append_assoc]
  exact skip_note h1 h2 h3

/-! ## Meanings -/

theorem meanings_proper {p : Piece} {ps : List Piece} (h : Piece.Proper p) :
    meanings (p :: ps) = p.meaning :: meanings ps := by
  cases p with
  | text t => exact h.elim
  | note t => exact h.elim
  | _ => rw [meanings] <;> simp

theorem meanings_note {s : Str} {ps : List Piece} : meanings (.note s :: ps) = meanings ps := by
  rw [meanings]

theorem meanings_text {t : Str} {ps : List Piece} :
    meanings (.text t :: ps) = Spec.joinText t (meanings ps) := by
  rw [meanings]

theorem joinText_proper {t : Str} {p : Piece} {cs : List Cmd} (h : Piece.Proper p) :
    Spec.joinText t (p.meaning :: cs) = .lit t none :: p.meaning :: cs := by
  cases p with
  | text t => exact h.elim
  | note t => exact h.elim
  | choice w m b o more =>
    rw [Piece.meaning]
    unfold Spec.variantOf
    rcases b with _ | ⟨b, sep⟩ <;> rfl
  | _ => rw [Piece.meaning]; rfl

/-! ## Texts with comments between them -/

/-- The parts after the comments at the beginning. -/
theorem drop_note {l : Place} {ps : List Piece} {u : Str} (h : Spec.ok l ps M = true)
    (hl : l = .top → u = []) :
    ∃ qs, Spec.ok l qs M = true ∧ meanings qs = meanings ps ∧ skip (source qs M ++ u) = skip (source ps M ++ u) ∧
      qs.length ≤ ps.length ∧ (∀ s qs', qs ≠ .note s :: qs') ∧
      (∀ t qs', qs = .text t :: qs' → (∀ t' ps', ps ≠ .text t' :: ps') → qs.length < ps.length) := by
  cases ps with
  | nil => exact ⟨[], h, rfl, rfl, Nat.le_refl _, by simp, by simp⟩
  | cons p ps =>
    cases p with
    | note s =>
      refine ⟨ps, (ok_cons h).2.1, meanings_note.symm, (note_skip h hl).symm, by simp, ?_, by simp⟩
      rintro s' qs rfl
      have := (ok_cons h).2.2
      simp [Spec.follows] at this
    | text t => exact ⟨_, h, rfl, rfl, Nat.le_refl _, by simp, fun t' qs' _ hn => absurd rfl (hn t ps)⟩
    | _ => exact ⟨_, h, rfl, rfl, Nat.le_refl _, by simp, by simp⟩

theorem pyJoin_two (t t' : Str) (xs : List Str) :
    pyJoin [' '] (t :: t' :: xs) = t ++ c!" " ++ pyJoin [' '] (t' :: xs) := by
  simp [pyJoin]

theorem plain_facts  {l : Place} {t : Str} (h : Spec.textOk l t M = true) :
    t.all (fun c => !exOf M al l c) = true ∧ hasSub M.wildcardWrap t = false := by
  have hp := (text_plain h).1
  simp only [Spec.plain, Bool.and_eq_true, Bool.not_eq_true'] at hp
  refine ⟨?_, hp.2⟩
  rw [← hp.1.2]
  congr 1
  funext c
  rw [exOf_eq]

include hM in
/-- The rest of a literal after a text of it. -/
theorem literal_rest {l : Place} {u : Str} (hl : l = .top → u = []) (hu : Solid u)
    (hS : Stops M.wildcardWrap (exOf M al l) u) (hh : u.head?.any M.wildcardWrap.contains = false)
    (hmk : NoMark u) : ∀ (k : Nat) (ps : List Piece) (n : Nat) (s : Str),
    ps.length ≤ k → Spec.ok l ps M = true → (∀ t qs, ps ≠ .text t :: qs) →
    skip s = skip (source ps M ++ u) → s.length ≤ n →
    ∃ qs, Spec.ok l qs M = true ∧ qs.length ≤ ps.length ∧
      skip (litPieces M.wildcardWrap (exOf M al l) n s).2 = skip (source qs M ++ u) ∧
      (skip (litPieces M.wildcardWrap (exOf M al l) n s).2).length ≤ (skip s).length ∧
      ∀ t, meanings (.text t :: ps) =
        .lit (pyJoin [' '] (t :: (litPieces M.wildcardWrap (exOf M al l) n s).1)) none :: meanings qs := by
  intro k
  induction k with
  | zero =>
    intro ps n s hk hok hnt hs hn
    have : ps = [] := List.length_eq_zero_iff.1 (Nat.le_zero.1 hk)
    subst this
    rw [source, List.nil_append, hu.skip] at hs
    rw [litPieces_stop (by rw [hs]; exact hS)]
    refine ⟨[], hok, Nat.le_refl _, by rw [source, List.nil_append, hu.skip]; exact hs, Nat.le_refl _, fun t => ?_⟩
    rw [meanings_text, meanings]
    rfl
  | succ k ih =>
    intro ps n s hk hok hnt hs hn
    obtain ⟨qs, hq, hm, hsk, hlen, hnn, hlt⟩ := drop_note hok hl
    rw [← hsk] at hs
    cases qs with
    | nil =>
      rw [source, List.nil_append, hu.skip] at hs
      rw [litPieces_stop (by rw [hs]; exact hS)]
      refine ⟨[], rfl, by simp, by rw [source, List.nil_append, hu.skip]; exact hs, Nat.le_refl _, fun t => ?_⟩
      rw [meanings_text, ← hm, meanings]
      rfl
    | cons q qs =>
      by_cases hp : Piece.Proper q
      · have hst : Stops M.wildcardWrap (exOf M al l) (skip s) := by
          rw [hs, proper_skip hM hp]; exact proper_stops hM hp l _
        rw [litPieces_stop hst]
        refine ⟨q :: qs, hq, hlen, hs, Nat.le_refl _, fun t => ?_⟩
        rw [meanings_text, ← hm, meanings_proper hp, joinText_proper hp]
        rfl
      · cases q with
        | note s' => exact absurd rfl (hnn s' qs)
        | text t' =>
          have hlt := hlt t' qs rfl hnt
          have ht' := (ok_cons hq).1
          rw [Piece.ok] at ht'
          rw [text_skip hM hq hu (fun _ _ => hmk)] at hs
          have hne := text_ne ht'
          obtain ⟨f1, f2⟩ := plain_facts (al := al) ht'
          have hstop := textStops hM hq hS (fun _ _ => hh)
          have hls := skip_length s
          rw [hs, List.length_append] at hls
          have hl1 := List.length_pos_iff.2 hne
          obtain ⟨n, rfl⟩ : ∃ m, n = m + 1 := ⟨n - 1, by omega⟩
          rw [litPieces_text_step hs hstop.1 hne f1 f2 hstop.2]
          have hnt2 : ∀ t'' qs', qs ≠ .text t'' :: qs' := by
            rintro t'' qs' rfl
            have := (ok_cons hq).2.2
            simp [Spec.follows] at this
          obtain ⟨rs, r1, r2, r3, r4, r5⟩ := ih qs n (source qs M ++ u)
            (by simp only [List.length_cons] at hlt; omega) (ok_cons hq).2.1 hnt2 rfl (by omega)
          refine ⟨rs, r1, by simp only [List.length_cons] at hlt; omega, r3, ?_, fun t => ?_⟩
          · have := skip_length (source qs M ++ u)
            rw [hs, List.length_append]
            refine Nat.le_trans r4 ?_
            omega
          · rw [meanings_text, ← hm, r5 t']
            dsimp only
            rw [pyJoin_two]
            rfl
        | _ => exact absurd trivial hp

/-! ## Reading the parts one after another -/

include hM in
theorem loop {f : Str → P Cmd} {l : Place} {u : Str} {n : Nat}
    (hl : l = .top → u = []) (hu : Solid u) (hS : Stops M.wildcardWrap (exOf M al l) u) (hh : u.head?.any M.wildcardWrap.contains = false)
    (hmk : NoMark u)
    (hf : ∀ p s r, Piece.Proper p → p.ok l M = true → skip s = p.source M ++ r → (skip s).length ≤ n →
      f s = .ok p.meaning r)
    (ht : ∀ t s r, Spec.textOk l t M = true → TextStops M.wildcardWrap (exOf M al l) t r → skip s = t ++ r →
      f s = literal M.wildcardWrap (exOf M al l) s)
    (hend : ∀ s, skip s = u → f s = .fail) :
    ∀ (m : Nat) (ps : List Piece) (k : Nat) (s : Str), ps.length ≤ m → Spec.ok l ps M = true →
      skip s = skip (source ps M ++ u) → (skip s).length < k → (skip s).length ≤ n →
      ∃ r, many (fun _ => false) f k s = .ok (meanings ps) r ∧ skip r = u := by
  intro m
  induction m with
  | zero =>
    intro ps k s hm hok hs hk hn
    have : ps = [] := List.length_eq_zero_iff.1 (Nat.le_zero.1 hm)
    subst this
    rw [source, List.nil_append, hu.skip] at hs
    obtain ⟨k, rfl⟩ : ∃ m, k = m + 1 := ⟨k - 1, by omega⟩
    unfold many
    rw [hend s hs]
    exact ⟨s, by rw [meanings]; rfl, hs⟩
  | succ m ih =>
    intro ps k s hm hok hs hk hn
    obtain ⟨qs, hq, hmq, hsk, hlen, hnn, hlt⟩ := drop_note hok hl
    rw [← hsk] at hs
    rw [← hmq]
    obtain ⟨k, rfl⟩ : ∃ m, k = m + 1 := ⟨k - 1, by omega⟩
    cases qs with
    | nil =>
      rw [source, List.nil_append, hu.skip] at hs
      unfold many
      rw [hend s hs]
      exact ⟨s, by rw [meanings]; rfl, hs⟩
    | cons q qs =>
      by_cases hp : Piece.Proper q
      · have hs' := hs
        rw [proper_skip hM hp] at hs'
        have hne := List.length_pos_iff.2 (source_ne_nil hM (ok_cons hq).1)
        have hL := congrArg List.length hs'
        rw [List.length_append] at hL
        have hL2 := skip_length (source qs M ++ u)
        obtain ⟨r, hr1, hr2⟩ := ih qs k (source qs M ++ u) (by simp only [List.length_cons] at hlen; omega)
          (ok_cons hq).2.1 rfl (by omega) (by omega)
        unfold many
        rw [hf q s _ hp (ok_cons hq).1 hs' hn]
        refine ⟨r, ?_, hr2⟩
        simp only [Bool.false_eq_true, if_false]
        rw [hr1, meanings_proper hp]
        rfl
      · cases q with
        | note s' => exact absurd rfl (hnn s' qs)
        | text t =>
          have ht' := (ok_cons hq).1
          rw [Piece.ok] at ht'
          rw [text_skip hM hq hu (fun _ _ => hmk)] at hs
          have hne := text_ne ht'
          obtain ⟨f1, f2⟩ := plain_facts (al := al) ht'
          have hstop := textStops hM hq hS (fun _ _ => hh)
          have hls := skip_length s
          have hL := congrArg List.length hs
          rw [List.length_append] at hL
          have hl1 := List.length_pos_iff.2 hne
          have hnt2 : ∀ t'' qs', qs ≠ .text t'' :: qs' := by
            rintro t'' qs' rfl
            have := (ok_cons hq).2.2
            simp [Spec.follows] at this
          obtain ⟨j, hj⟩ : ∃ j, s.length = j + 1 := ⟨s.length - 1, by omega⟩
          obtain ⟨rs, r1, r2, r3, r4, r5⟩ := literal_rest hM hl hu hS hh hmk qs.length qs j (source qs M ++ u)
            (Nat.le_refl _) (ok_cons hq).2.1 hnt2 rfl (by omega)
          have hlit : f s = .ok (.lit (pyJoin [' '] (t :: (litPieces M.wildcardWrap (exOf M al l) j
              (source qs M ++ u)).1)) none) (litPieces M.wildcardWrap (exOf M al l) j (source qs M ++ u)).2 := by
            rw [ht t s _ ht' hstop hs]
            unfold literal
            rw [hj, litPieces_text_step hs hstop.1 hne f1 f2 hstop.2]
            rfl
          have hL2 := skip_length (source qs M ++ u)
          obtain ⟨r, hr1, hr2⟩ := ih rs k (litPieces M.wildcardWrap (exOf M al l) j (source qs M ++ u)).2
            (by simp only [List.length_cons] at hlen; omega) r1 r3 (by omega) (by omega)
          unfold many
          rw [hlit]
          refine ⟨r, ?_, hr2⟩
          simp only [Bool.false_eq_true, if_false]
          rw [hr1, r5 t]
          rfl
        | _ => exact absurd trivial hp

include hM in
/-- Reading the parts of a path one after another. -/
theorem path_loop {f : Str → P Cmd} {stop : Str → Bool} {mean : Piece → Cmd} {u : Str}
    {n : Nat}
    (hf : ∀ p r, p.ok .path M = true → (∀ t, p = .text t → TextStops M.wildcardWrap (exOf M al .path) t r) →
      skip (p.source M ++ r) = p.source M ++ r → (∀ t, p = .text t → Stops M.wildcardWrap (exOf M al .path) (skip r)) →
      (p.source M ++ r).length ≤ n → stop (p.source M ++ r) = false ∧ f (p.source M ++ r) = .ok (mean p) r)
    (hu : Solid u) (hS : Stops M.wildcardWrap (exOf M al .path) u) (hend : stop u = true ∨ f u = .fail) :
    ∀ (ps : List Piece) (k : Nat), Spec.ok .path ps M = true →
      Apart M.wildcardWrap (source ps M) u → ((source ps M).getLast? = some '/' → NoMark u) →
      (source ps M ++ u).length ≤ n → (source ps M).length < k →
      many stop f k (source ps M ++ u) = .ok (ps.map mean) u
  | _, 0, _, _, _, _, hk => absurd hk (Nat.not_lt_zero _)
  | [], k + 1, _, _, _, _, _ => by
    rw [source, List.nil_append]
    unfold many
    rcases hend with h | h
    · rw [if_pos h]; rfl
    · rw [h]
      split <;> rfl
  | p :: ps, k + 1, hok, hlast, hmk, hn, hk => by
    obtain ⟨h1, h2, h3⟩ := ok_cons hok
    have hs : source (p :: ps) M ++ u = p.source M ++ (source ps M ++ u) := by
      rw [source, List.append_assoc]
    have hne := List.length_pos_iff.2 (source_ne_nil hM h1)
    have hlast' : Apart M.wildcardWrap (source ps M) u := by
      intro h
      apply hlast
      rw [source, List.getLast?_append]
      cases hg : (source ps M).getLast? with
      | none => rw [hg] at h; cases h
      | some c => rw [hg] at h; exact h
    have hmk' : (source ps M).getLast? = some '/' → NoMark u := by
      intro h
      apply hmk
      rw [source, List.getLast?_append, h]
      rfl
    have hone : ∀ t, p = .text t → ps = [] → source (p :: ps) M = t := by
      rintro t rfl rfl
      rw [source, source, Piece.source, List.append_nil]
    have hsk : skip (p.source M ++ (source ps M ++ u)) = p.source M ++ (source ps M ++ u) ∧
        (∀ t, p = .text t → TextStops M.wildcardWrap (exOf M al .path) t (source ps M ++ u)) ∧
        (∀ t, p = .text t → Stops M.wildcardWrap (exOf M al .path) (skip (source ps M ++ u))) := by
      cases p with
      | note s => rw [Piece.ok] at h1; simp at h1
      | text t =>
        have hts : TextStops M.wildcardWrap (exOf M al .path) t (source ps M ++ u) := by
          refine textStops hM hok hS fun e => ?_
          rw [hone t rfl e] at hlast
          exact hlast
        refine ⟨?_, fun t' e => by cases e; exact hts, fun t' e => ?_⟩
        · rw [Piece.source]; exact skip_none (text_comment hM hok hu fun e => by rw [← hone t rfl e]; exact hmk)
        · cases ps with
          | nil => rw [source, List.nil_append, hu.skip]; exact hS
          | cons q qs =>
            cases q with
            | note s => have := (ok_cons h2).1; rw [Piece.ok] at this; simp at this
            | text t => simp [Spec.follows] at h3
            | _ => rw [proper_skip hM (by trivial)]; exact proper_stops hM (by trivial) .path _
      | _ => exact ⟨(proper_solid hM (by trivial) _).skip, by simp, by simp⟩
    rw [hs] at hn ⊢
    obtain ⟨e1, e2⟩ := hf p _ h1 hsk.2.1 hsk.1 hsk.2.2 hn
    unfold many
    rw [if_neg (by rw [e1]; simp), e2]
    have hk' : (source ps M).length < k := by
      rw [source, List.length_append] at hk; omega
    have hn' : (source ps M ++ u).length ≤ n := by
      rw [List.length_append] at hn; omega
    dsimp only
    rw [path_loop hf hu hS hend ps k h2 hlast' hmk' hn' hk']
    rfl

/-! ## No `$$` in the text of a part, except after a brace -/

theorem plain_no_dollar {l : Place} {t : Str} (h : Spec.plain l t M = true)
    (hl : l = .inside ∨ M.fenced = true) : '$' ∉ t := by
  intro hm
  simp only [Spec.plain, Bool.and_eq_true] at h
  have := List.all_eq_true.1 h.1.2 '$' hm
  rw [Bool.not_eq_true', ← Bool.not_eq_true, List.contains_iff_mem] at this
  rcases hl with rfl | hf
  · exact this (by simp [Place.special])
  · simp only [Spec.Marks.fenced, Bool.and_eq_true, List.contains_iff_mem, List.mem_append] at hf
    refine this ?_
    simp only [Place.special, List.mem_append]
    rcases hf.2 with (h | h) | h <;> simp [h]

/-- Characters that are part of a run of separators and of no comment. -/
def hardChar (c : Char) : Bool := isSepChar c && !(isWs c || c == '#' || c == '/')

theorem method_hard (m : Option Method) : (Spec.methodSource m).all hardChar = true := by
  cases m with
  | none => rfl
  | some m => cases m <;> decide

theorem num_hard {c : Char} (h : isNum c = true) : hardChar c = true := by
  have h : '0'.toNat ≤ c.toNat ∧ c.toNat ≤ '9'.toNat := by simpa [isNum] using h
  have h1 : 48 ≤ c.toNat := h.1
  have h2 : c.toNat ≤ 57 := h.2
  generalize hn : c.toNat = n at h1 h2
  have := char_cases hn
  subst this
  clear hn h
  interval_cases n <;> decide

theorem weight_hard {n : Spec.Num} (h : n.ok = true) : (Spec.weightSource (some n)).all hardChar = true := by
  have hd : ∀ {s : Str}, s.all digit = true → s.all hardChar = true := by
    intro s hs
    rw [digit_eq] at hs
    rw [List.all_eq_true] at hs ⊢
    exact fun c hc => num_hard (hs c hc)
  obtain ⟨w, d, sg⟩ := n
  cases d with
  | none =>
    simp only [Spec.Num.ok, Bool.and_eq_true] at h
    rw [Spec.weightSource, Spec.Num.source, List.all_append, hd h.1]
    decide
  | some d =>
    simp only [Spec.Num.ok, Bool.and_eq_true] at h
    have h4 := h.2
    rw [Spec.weightSource, Spec.Num.source, List.all_append, List.all_append, List.all_append, List.all_append,
      hd h.1.1.1, hd h.1.1.2]
    simp only [List.contains_iff_mem, List.mem_cons, List.not_mem_nil, or_false] at h4
    rcases h4 with rfl | rfl | rfl <;> decide

theorem param_name {n v : Str} (h : Spec.paramOk n v = true) : '$' ∉ n ∧ markedLine n = false := by
  simp only [Spec.paramOk, Bool.and_eq_true, Bool.not_eq_true'] at h
  refine ⟨fun hm => ?_, h.2⟩
  have := List.all_eq_true.1 h.1.1.1.1.1.1 '$' hm
  simp at this

theorem text_line {l : Place} {t : Str} (hl : l ≠ .top) (h : Spec.textOk l t M = true) :
    markedLine t = false := by
  simp only [Spec.textOk, Bool.and_eq_true, Bool.not_eq_true'] at h
  cases l with
  | top => exact absurd rfl hl
  | inside => simp only [Bool.and_eq_true, Bool.not_eq_true'] at h; exact h.2.1
  | path => simp only [Bool.and_eq_true, Bool.not_eq_true'] at h; exact h.2.1
  | param => simp only [Bool.not_eq_true'] at h; exact h.2


theorem last_source {p : Piece} {ps : List Piece} {u : Str}
    (hm : (source (p :: ps) M).getLast? = some '/' → NoMark u) : (source ps M).getLast? = some '/' → NoMark u := by
  intro h
  apply hm
  rw [source, List.getLast?_append, h]
  rfl

include hM in
theorem wrap_noMark {t : Str} (h : Spec.endsIn M.touches t = false) (u : Str) :
    t.getLast? = some '/' → NoMark (M.wildcardWrap ++ u) := by
  intro hl
  refine mark_any (hM.mark _ (.inl (.inl rfl))) ?_ u
  obtain ⟨c, r, e, -, -, h3⟩ := markOk_head (hM.mark M.wildcardWrap (.inl (.inl rfl)))
  rw [Spec.endsIn, hl] at h
  simp only [Option.any_some, Spec.Marks.touches, Bool.or_eq_false_iff, beq_self_eq_true, Bool.true_and,
    Spec.beginsWith, e, List.head?_cons] at h
  rw [e]
  simp only [List.head?_cons, Option.any_some, h.2, Bool.or_false, beq_eq_false_iff_ne]
  exact h3

section
variable (hF : M.fenced = true)
include hM hF

mutual
theorem safeL : ∀ (ps : List Piece) {l : Place} {u : Str}, l ≠ .top → Spec.ok l ps M = true →
    ((source ps M).getLast? = some '/' → NoMark u) → Safe u → Safe (source ps M ++ u)
  | [], _, _, _, _, _, hu => by rw [source]; exact hu
  | .text t :: ps, l, u, hl, h, hm, hu => by
    obtain ⟨h1, h2, -⟩ := ok_cons h
    rw [Piece.ok] at h1
    have hm2 : ps = [] → t.getLast? = some '/' → NoMark u := by
      rintro rfl
      rw [source, source, Piece.source, List.append_nil] at hm
      exact hm
    rw [source, Piece.source, List.append_assoc]
    exact .text (plain_no_dollar (text_plain h1).1 (.inr hF)) (text_line hl h1) (after_text_mark hM h hm2)
      (safeL ps hl h2 (last_source hm) hu)
  | .note s :: ps, l, u, hl, h, hm, hu => by
    obtain ⟨h1, h2, -⟩ := ok_cons h
    obtain ⟨ρ, e1, e2, e3⟩ := note_end (u := u) h (fun e => absurd e hl)
    rw [Piece.ok] at h1
    simp only [Bool.and_eq_true, Bool.or_eq_true, beq_iff_eq, hl, false_or] at h1
    rw [source, Piece.source, List.append_assoc]
    exact .gap e1 (.inr e2) e3 h1.2.2 (safeL ps hl h2 (last_source hm) hu)
  | .choice w m b o more :: ps, l, u, _, h, hm, hu => by
    rw [source, Piece.source]; simp only [List.append_assoc]
    exact mark_safe (hM.mark _ (.inl (.inr (.inl rfl)))) (.inl (fenced_opening hF (.inl (.inl rfl))))
  | .wild m path [] :: ps, l, u, hl, h, hm, hu => by
    obtain ⟨h1, h2, -⟩ := ok_cons h
    rw [Piece.ok] at h1
    simp only [Bool.and_eq_true, Bool.not_eq_true'] at h1
    rw [source, Piece.source]; simp only [List.append_assoc]
    have hw := hM.mark M.wildcardWrap (.inl (.inl rfl))
    exact mark_safe hw (.inr (.hards (safeL path (l := .path) (by simp) h1.1.1.1.2
      (wrap_noMark hM h1.1.1.2 _) (mark_safe hw (.inr (safeL ps hl h2 (last_source hm) hu)))) (method_hard m)))
  | .wild m path (.mk n v :: pp) :: ps, l, u, hl, h, hm, hu => by
    obtain ⟨h1, h2, -⟩ := ok_cons h
    rw [Piece.ok] at h1
    simp only [Bool.and_eq_true] at h1
    rw [source, Piece.source]; simp only [List.append_assoc]
    have h3 := h1.2
    rw [paramsOk] at h3
    simp only [Bool.and_eq_true] at h3
    obtain ⟨n1, n2⟩ := param_name h3.1.1.2
    rw [Param.source]; simp only [List.append_assoc]
    have hw := hM.mark M.wildcardWrap (.inl (.inl rfl))
    have hs1 : Safe (c!")" ++ (M.wildcardWrap ++ (source ps M ++ u))) :=
      .hards (mark_safe hw (.inr (safeL ps hl h2 (last_source hm) hu))) (by decide)
    have hm1 : NoMark (paramsSource pp M ++ (c!")" ++ (M.wildcardWrap ++ (source ps M ++ u)))) := by
      cases pp with
      | nil => rw [paramsSource]; rfl
      | cons q qs => rw [paramsSource]; rfl
    have hs2 := safeParams pp h3.2 rfl hs1
    have hs3 : Safe (n ++ (c!"=" ++ (source v M ++ (paramsSource pp M ++ (c!")" ++ (M.wildcardWrap ++
        (source ps M ++ u))))))) := by
      refine .text n1 n2 (fun _ => rfl) (.hards (safeL v (l := .param) (by simp) h3.1.1.1 (fun _ => hm1) hs2) ?_)
      decide
    refine mark_safe hw (.inr (.hards (safeL path (l := .path) (by simp) h1.1.1.1.2 (fun _ => rfl)
      (.hards hs3 ?_)) (method_hard m)))
    decide
  | .get w1 n w2 :: ps, l, u, _, h, hm, hu => by
    rw [source, Piece.source]; simp only [List.append_assoc]
    exact mark_safe (hM.mark _ (.inl (.inr (.inr (.inl rfl))))) (.inl (fenced_opening hF (.inl (.inr (.inl rfl)))))
  | .getD w1 n w2 w3 d :: ps, l, u, _, h, hm, hu => by
    rw [source, Piece.source]; simp only [List.append_assoc]
    exact mark_safe (hM.mark _ (.inl (.inr (.inr (.inl rfl))))) (.inl (fenced_opening hF (.inl (.inr (.inl rfl)))))
  | .set w1 n w2 k i w3 v :: ps, l, u, _, h, hm, hu => by
    rw [source, Piece.source]; simp only [List.append_assoc]
    exact mark_safe (hM.mark _ (.inl (.inr (.inr (.inl rfl))))) (.inl (fenced_opening hF (.inl (.inr (.inl rfl)))))
  | .wrap w1 a w2 b :: ps, l, u, _, h, hm, hu => by
    rw [source, Piece.source]; simp only [List.append_assoc]
    exact mark_safe (hM.mark _ (.inl (.inr (.inr (.inr rfl))))) (.inl (fenced_opening hF (.inl (.inr (.inr rfl)))))
theorem safeParams : ∀ (ps : List Param) {u : Str}, paramsOk ps M = true → NoMark u → Safe u →
    Safe (paramsSource ps M ++ u)
  | [], _, _, _, hu => by rw [paramsSource]; exact hu
  | .mk n v :: ps, u, h, hm, hu => by
    rw [paramsOk] at h
    simp only [Bool.and_eq_true] at h
    obtain ⟨n1, n2⟩ := param_name h.1.1.2
    rw [paramsSource, Param.source]; simp only [List.append_assoc]
    have hm1 : NoMark (paramsSource ps M ++ u) := by
      cases ps with
      | nil => rw [paramsSource]; exact hm
      | cons q qs => rw [paramsSource]; rfl
    refine .hards (.text n1 n2 (fun _ => rfl) (.hards (safeL v (l := .param) (by simp) h.1.1.1 (fun _ => hm1)
      (safeParams ps h.2 hm hu)) ?_)) ?_ <;> decide
end
end

include hM in
/-- No mark that begins a part looks like a bound or like a weight. -/
theorem mark_guarded {d : Char} (hd : d = '$' ∨ d = ':') {a : Str} (ha : Begins M a) (u : Str) :
    Guarded d (a ++ u) := by
  have hk := hM.mark a (.inl ha)
  refine .inert ?_ ?_ (mark_solid hk u).comment
  · rcases hd with rfl | rfl
    · exact mark_dollar hk u
    · have := mark_any hk (head_imp (q := fun c => c == ':') (hM.head a (.inl ha)) ?_) u
      · refine isPrefixOf_head ?_ (by simp)
        rintro _ ⟨⟩ e
        rw [e] at this
        simp at this
      · intro c hc
        simp only [Bool.or_eq_false_iff] at hc
        rw [Bool.eq_false_iff]
        intro e
        rw [beq_iff_eq] at e
        subst e
        exact absurd hc.2 (by decide)
  · have hw : a.head?.any c!"+-.".contains = false → (a ++ u).head?.any Spec.weightChar = false := by
      intro h1
      refine mark_any hk ?_ u
      have h2 := hM.head a (.inl ha)
      cases hh : a.head? with
      | none => rfl
      | some c =>
        rw [hh] at h1 h2
        simp only [Option.any_some, Bool.or_eq_false_iff] at h1 h2 ⊢
        exact Bool.or_eq_false_iff.2 ⟨h2.1.1.2, h1⟩
    rcases ha with rfl | ha
    · rcases hM.wrapWeight with h | h
      · exact .inl (hw h)
      · right
        rw [List.isPrefixOf_iff_prefix] at h ⊢
        exact h.trans (List.prefix_append _ _)
    · left
      refine hw (head_contains (hM.opening a ha) ?_)
      intro c hc
      rw [List.contains_iff_mem] at hc
      revert hc
      simp only [List.mem_cons, List.not_mem_nil, or_false]
      rintro (h | h | h) <;> simp [h]

include hM in
/-- Nothing at the beginning of an option looks like a bound, or like a weight if the option has none. -/
theorem guardL {d : Char} (hd : d = '$' ∨ d = ':') {u : Str} (hm : NoMark u)
    (hc : u.head?.any (fun c => c == ':') = false)
    (hu : Guarded d u) : ∀ (ps : List Piece), Spec.ok .inside ps M = true →
    (d = ':' → Spec.noWeight ps = true) → Guarded d (source ps M ++ u)
  | [], _, _ => by rw [source]; exact hu
  | p :: ps, h, hw => by
    obtain ⟨h1, h2, -⟩ := ok_cons h
    by_cases hp : Piece.Proper p
    · obtain ⟨a, s, e, ha⟩ := proper_begins (M := M) p hp
      rw [source, e, List.append_assoc, List.append_assoc]
      exact mark_guarded hM hd ha _
    · cases p with
      | text t =>
        rw [source, Piece.source, List.append_assoc]
        rw [Piece.ok] at h1
        have hwt : marked (t.dropWhile Spec.weightChar) = false := by
          simp only [Spec.textOk, Bool.and_eq_true, Bool.not_eq_true'] at h1
          exact h1.2.2
        have hw' : d = ':' → c!"::".isPrefixOf (t.dropWhile Spec.weightChar) = false ∧
            Spec.noWeight ps = true := by
          intro e
          have := hw e
          rw [Spec.noWeight] at this
          simpa using this
        have hcol : ∀ d, Begins M d → d.head?.any (fun c => c == ':') = false := by
          intro d hd
          refine head_imp (hM.head d (.inl hd)) ?_
          intro c hc
          simp only [Bool.or_eq_false_iff] at hc
          rw [Bool.eq_false_iff]
          intro e
          rw [beq_iff_eq] at e
          subst e
          exact absurd hc.2 (by decide)
        have hany := after_text (u := u) hM h (fun c => c == ':') rfl (fun d hd => hcol d (.inr hd))
          (fun _ => hcol _ (.inl rfl)) (fun _ => hc)
        refine .text hd (guardL hd hm hc hu ps h2 (fun e => (hw' e).2))
          (after_text_mark hM h fun _ _ => hm) hwt ?_
        intro c r hcr
        rcases hd with rfl | rfl
        · refine dollar_prefix ?_
          rintro rfl
          refine plain_no_dollar (text_plain h1).1 (.inl rfl) ((List.dropWhile_suffix Spec.weightChar).subset ?_)
          rw [hcr]
          exact List.mem_cons_self
        · have := (hw' rfl).1
          rw [hcr] at this
          cases r with
          | nil =>
            revert hany
            generalize source ps M ++ u = v
            intro hany
            cases v with
            | nil => simp [List.isPrefixOf]
            | cons x v =>
              simp only [List.head?_cons, Option.any_some, beq_eq_false_iff_ne, ne_eq] at hany
              simp [List.isPrefixOf, Ne.symm hany]
          | cons x r => simpa [List.isPrefixOf] using this
      | note s =>
        obtain ⟨ρ, e1, e2, e3⟩ := note_end (u := u) h (by rintro ⟨⟩)
        rw [source, Piece.source, List.append_assoc]
        refine .gap hd e1 (.inr e2) e3 (guardL hd hm hc hu ps h2 fun e => ?_)
        have := hw e
        rw [Spec.noWeight] at this
        exact this
      | _ => exact absurd trivial hp

end
end Verif
