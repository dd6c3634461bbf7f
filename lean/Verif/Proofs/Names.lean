import Verif.Model.Glob
import Verif.Spec.Names
import Verif.Proofs.Text
/-!
# Lemmas about wildcard names and patterns
-/

namespace Verif
open Spec

theorem isSep_iff (c : Char) : isSep c = true ↔ Separator c := by
  simp only [isSep, Separator, Bool.or_eq_true, beq_iff_eq]; exact Or.comm

theorem isSep_false_iff (c : Char) : isSep c = false ↔ ¬ Separator c := by
  rw [← isSep_iff]; simp

theorem hasSub_iff (sub s : Str) : hasSub sub s = true ↔ sub <:+: s := by
  induction s with
  | nil => simp [hasSub, List.isEmpty_iff]
  | cons c cs ih =>
    simp only [hasSub, Bool.or_eq_true, ih, List.isPrefixOf_iff_prefix]
    exact List.infix_cons_iff.symm

theorem collapseSeps_noSep (b : Bool) (seg s : Str) (hne : seg ≠ []) (h : ∀ c ∈ seg, ¬ Separator c) :
    collapseSeps b (seg ++ s) = seg ++ collapseSeps false s := by
  induction seg generalizing b with
  | nil => exact absurd rfl hne
  | cons c cs ih =>
    have hc : isSep c = false := (isSep_false_iff c).2 (h c (by simp))
    simp only [List.cons_append, collapseSeps, hc, Bool.false_eq_true, if_false]
    cases cs with
    | nil => rfl
    | cons d ds =>
      rw [ih false (by simp) (fun x hx => h x (by simp [hx]))]
      

/-- What collapsing separators makes of a spelled name. -/
theorem collapseSeps_spells {s : Str} {segs : List Str} (h : Spells s segs) :
    (∃ t, (t = [] ∨ t = ['/']) ∧
      collapseSeps true s = if segs = [] then [] else pyJoin ['/'] segs ++ t) ∧
    (∃ l t, (l = [] ∨ l = ['/']) ∧ (t = [] ∨ t = ['/']) ∧
      collapseSeps false s = if segs = [] then l else l ++ pyJoin ['/'] segs ++ t) := by
  induction h with
  | nil => exact ⟨⟨[], .inl rfl, rfl⟩, ⟨[], [], .inl rfl, .inl rfl, rfl⟩⟩
  | @sep c s segs hc hs ih =>
    obtain ⟨⟨t, ht, e1⟩, -⟩ := ih
    have hc' := (isSep_iff c).2 hc
    refine ⟨⟨t, ht, ?_⟩, ⟨['/'], t, .inr rfl, ht, ?_⟩⟩
    · simp only [collapseSeps, hc', if_true]; exact e1
    · simp only [collapseSeps, hc', if_true, Bool.false_eq_true, if_false]
      rw [e1]; split <;> simp
  | @last seg hne h =>
    refine ⟨⟨[], .inl rfl, ?_⟩, ⟨[], [], .inl rfl, .inl rfl, ?_⟩⟩
    · have := collapseSeps_noSep true seg [] hne h
      simp [collapseSeps] at this; simp [this, pyJoin]
    · have := collapseSeps_noSep false seg [] hne h
      simp [collapseSeps] at this; simp [this, pyJoin]
  | @seg seg c s segs hne h hc hs ih =>
    obtain ⟨⟨t, ht, e1⟩, -⟩ := ih
    have hc' := (isSep_iff c).2 hc
    have key : ∀ b, ∃ t, (t = [] ∨ t = ['/']) ∧
        collapseSeps b (seg ++ c :: s) = pyJoin ['/'] (seg :: segs) ++ t := by
      intro b
      rw [collapseSeps_noSep b seg (c :: s) hne h]
      simp only [collapseSeps, hc', if_true, Bool.false_eq_true, if_false, e1]
      by_cases hz : segs = []
      · subst hz; exact ⟨['/'], .inr rfl, by simp [pyJoin]⟩
      · refine ⟨t, ht, ?_⟩
        simp [hz, pyJoin_cons _ _ _ hz]
    obtain ⟨t1, h1, e1'⟩ := key true
    obtain ⟨t2, h2, e2'⟩ := key false
    exact ⟨⟨t1, h1, by simp [e1']⟩, ⟨[], t2, .inl rfl, h2, by simp [e2']⟩⟩

theorem spells_segs {s : Str} {segs : List Str} (h : Spells s segs) :
    ∀ seg ∈ segs, seg ≠ [] ∧ ∀ c ∈ seg, ¬ Separator c := by
  induction h with
  | nil => simp
  | sep _ _ ih => exact ih
  | last hne h => simpa using ⟨hne, h⟩
  | seg hne h _ _ ih =>
    intro x hx
    rcases List.mem_cons.1 hx with rfl | hx
    · exact ⟨hne, h⟩
    · exact ih x hx

/-- Every text spells some list of segments. -/
theorem spells_total (s : Str) : ∃ segs, Spells s segs := by
  have key : ∀ n, ∀ s : Str, s.length ≤ n → ∃ segs, Spells s segs := by
    intro n
    induction n with
    | zero => intro s hs; cases s with
      | nil => exact ⟨[], .nil⟩
      | cons c cs => simp at hs
    | succ n ih =>
      intro s hs
      cases s with
      | nil => exact ⟨[], .nil⟩
      | cons c cs =>
        by_cases hc : Separator c
        · obtain ⟨segs, h⟩ := ih cs (by simp at hs; omega)
          exact ⟨segs, .sep hc h⟩
        · let p : Char → Bool := fun c => !isSep c
          have happ : (c :: cs).takeWhile p ++ (c :: cs).dropWhile p = c :: cs :=
            List.takeWhile_append_dropWhile
          have hpc : p c = true := by simp [p, (isSep_false_iff c).2 hc]
          have hne : (c :: cs).takeWhile p ≠ [] := by simp [hpc]
          have hall : ∀ x ∈ (c :: cs).takeWhile p, ¬ Separator x := by
            intro x hx
            have := List.all_takeWhile (l := c :: cs) (p := p)
            rw [List.all_eq_true] at this
            have := this x hx
            rw [← isSep_false_iff]; simpa [p] using this
          cases hd : (c :: cs).dropWhile p with
          | nil =>
            rw [hd, List.append_nil] at happ
            rw [← happ]; exact ⟨_, .last hne hall⟩
          | cons d ds =>
            have hdp : p d = false := by
              have := List.head?_dropWhile_not p (c :: cs)
              rw [hd] at this; simpa using this
            have hsep : Separator d := by
              rw [← isSep_iff]; simpa [p] using hdp
            rw [hd] at happ
            have hlen : ds.length ≤ n := by
              have := congrArg List.length happ
              have h0 := List.length_pos_iff.2 hne
              simp at this hs; omega
            obtain ⟨segs, h⟩ := ih ds hlen
            rw [← happ]
            exact ⟨_, .seg hne hall hsep h⟩
  exact key _ s (Nat.le_refl _)

/-- Splitting at `/` only. -/
theorem slash_not_mem {seg : Str} (h : ∀ c ∈ seg, ¬ Separator c) : '/' ∉ seg :=
  fun hm => h _ hm (.inl rfl)

theorem dropWhile_pyJoin (segs : List Str) (h : ∀ seg ∈ segs, seg ≠ [] ∧ '/' ∉ seg) (t : Str) (hs : segs ≠ []) :
    (pyJoin ['/'] segs ++ t).dropWhile (· == '/') = pyJoin ['/'] segs ++ t := by
  match segs, hs with
  | x :: r, _ =>
    have hx := h x (by simp)
    obtain ⟨c, cs, rfl⟩ := List.exists_cons_of_ne_nil hx.1
    have hc : c ≠ '/' := fun e => hx.2 (by simp [e])
    cases r with
    | nil => simp [pyJoin, hc]
    | cons y r => simp [pyJoin, hc]

theorem pyJoin_last (segs : List Str) (hs : segs ≠ []) :
    ∃ a, pyJoin ['/'] segs = a ++ segs.getLast hs := by
  induction segs with
  | nil => exact absurd rfl hs
  | cons x r ih =>
    cases r with
    | nil => exact ⟨[], by simp [pyJoin]⟩
    | cons y r =>
      obtain ⟨a, e⟩ := ih (by simp)
      refine ⟨x ++ ['/'] ++ a, ?_⟩
      simp only [pyJoin] at e ⊢
      rw [e]; simp

theorem rstrip_pyJoin (segs : List Str) (h : ∀ seg ∈ segs, seg ≠ [] ∧ '/' ∉ seg)
    (t : Str) (ht : t = [] ∨ t = ['/']) (hs : segs ≠ []) :
    rstripP (· == '/') (pyJoin ['/'] segs ++ t) = pyJoin ['/'] segs := by
  obtain ⟨a, e⟩ := pyJoin_last segs hs
  have hl := h (segs.getLast hs) (List.getLast_mem hs)
  generalize segs.getLast hs = l at *
  obtain ⟨l', c, rfl⟩ : ∃ l' c, l = l' ++ [c] :=
    ⟨l.dropLast, l.getLast hl.1, (List.dropLast_concat_getLast hl.1).symm⟩
  have hc : c ≠ '/' := fun e => hl.2 (by simp [e])
  rw [e]
  rcases ht with rfl | rfl <;> simp [rstripP, hc]

/-- Stripping slashes off a joined name with at most one slash on each side. -/
theorem strip_pyJoin (segs : List Str) (h : ∀ seg ∈ segs, seg ≠ [] ∧ '/' ∉ seg)
    (l t : Str) (hl : l = [] ∨ l = ['/']) (ht : t = [] ∨ t = ['/']) (hs : segs ≠ []) :
    stripP (· == '/') (l ++ pyJoin ['/'] segs ++ t) = pyJoin ['/'] segs := by
  have e : lstripP (· == '/') (l ++ pyJoin ['/'] segs ++ t) = pyJoin ['/'] segs ++ t := by
    rcases hl with rfl | rfl
    · simpa [lstripP] using dropWhile_pyJoin segs h t hs
    · simpa [lstripP, List.dropWhile_cons] using dropWhile_pyJoin segs h t hs
  rw [stripP, e]
  exact rstrip_pyJoin segs h t ht hs

/-- What cleaning does to the text inside the wrap. -/
theorem strip_collapse {s : Str} {segs : List Str} (h : Spells s segs) :
    stripP (· == '/') (collapseSeps false s) = pyJoin ['/'] segs := by
  obtain ⟨-, l, t, hl, ht, e⟩ := collapseSeps_spells h
  rw [e]
  have hsegs : ∀ seg ∈ segs, seg ≠ [] ∧ '/' ∉ seg := fun x hx =>
    ⟨(spells_segs h x hx).1, slash_not_mem (spells_segs h x hx).2⟩
  by_cases hz : segs = []
  · subst hz
    rcases hl with rfl | rfl <;> simp [stripP, lstripP, rstripP, pyJoin]
  · simp only [if_neg hz]
    exact strip_pyJoin segs hsegs l t hl ht hz

theorem dots_infix_append (a b : Str) : ['.', '.'] <:+: a ++ '/' :: b ↔ ['.', '.'] <:+: a ∨ ['.', '.'] <:+: b := by
  constructor
  · intro h
    rw [List.append_cons, List.append_assoc] at h
    rw [← hasSub_iff] at h
    induction a with
    | nil =>
      right
      simp only [List.nil_append, List.cons_append, hasSub] at h
      have e : List.isPrefixOf ['.', '.'] ('/' :: b) = false := by simp [List.isPrefixOf]
      rw [e] at h
      exact (hasSub_iff _ _).1 (by simpa using h)
    | cons c cs ih =>
      simp only [List.cons_append, hasSub, Bool.or_eq_true] at h
      rcases h with h | h
      · left
        rw [List.isPrefixOf_iff_prefix] at h
        cases cs with
        | nil => simp [List.cons_prefix_cons] at h
        | cons d ds =>
          simp only [List.cons_append, List.cons_prefix_cons, List.nil_prefix, and_true] at h
          obtain ⟨rfl, rfl⟩ := h
          exact ⟨[], ds, rfl⟩
      · rcases ih h with h | h
        · exact .inl (List.infix_cons h)
        · exact .inr h
  · rintro (h | h)
    · exact h.trans ⟨[], '/' :: b, by simp⟩
    · exact h.trans ⟨a ++ ['/'], [], by simp⟩

theorem dots_infix_pyJoin (segs : List Str) :
    ['.', '.'] <:+: pyJoin ['/'] segs ↔ ∃ seg ∈ segs, ['.', '.'] <:+: seg := by
  induction segs with
  | nil => simp [pyJoin]
  | cons x r ih =>
    cases r with
    | nil => simp [pyJoin]
    | cons y r =>
      have e : pyJoin ['/'] (x :: y :: r) = x ++ '/' :: pyJoin ['/'] (y :: r) := by simp [pyJoin]
      rw [e, dots_infix_append, ih]
      simp

theorem mem_pyJoin {c : Char} (segs : List Str) (h : c ∈ pyJoin ['/'] segs) :
    c = '/' ∨ ∃ seg ∈ segs, c ∈ seg := by
  induction segs with
  | nil => simp [pyJoin] at h
  | cons x r ih =>
    cases r with
    | nil => exact .inr ⟨x, by simp, by simpa [pyJoin] using h⟩
    | cons y r =>
      simp only [pyJoin, List.append_assoc, List.mem_append, List.cons_append, List.nil_append,
        List.mem_cons] at h
      rcases h with h | h | h
      · exact .inr ⟨x, by simp, h⟩
      · exact .inl h
      · rcases ih h with h | ⟨s, hs, h⟩
        · exact .inl h
        · exact .inr ⟨s, by simp_all, h⟩

theorem cleanWildcard_eq (wrap w : Str) {segs : List Str}
    (h : Spells (removesuffix (removeprefix w wrap) wrap) segs) :
    cleanWildcard wrap w =
      if ∃ seg ∈ segs, ['.', '.'] <:+: seg then none else some (pyJoin ['/'] segs) := by
  simp only [cleanWildcard, strip_collapse h]
  have hb : hasSub ['\\'] (pyJoin ['/'] segs) = false := by
    rw [Bool.eq_false_iff]; intro hh
    rw [hasSub_iff] at hh
    replace hh : '\\' ∈ pyJoin ['/'] segs := hh.subset (by simp)
    rcases mem_pyJoin segs hh with h' | ⟨s, hs, h'⟩
    · exact absurd h' (by decide)
    · exact (spells_segs h s hs).2 _ h' (.inr rfl)
  by_cases hd : ∃ seg ∈ segs, ['.', '.'] <:+: seg
  · rw [if_pos hd, if_pos]; exact (hasSub_iff _ _).2 ((dots_infix_pyJoin segs).2 hd)
  · rw [if_neg hd, if_neg, hb]
    · simp
    · intro hh; exact hd ((dots_infix_pyJoin segs).1 ((hasSub_iff _ _).1 hh))

theorem unwraps_iff (wrap w body : Str) :
    Unwraps wrap w body ↔ removesuffix (removeprefix w wrap) wrap = body := by
  have hp : ∀ mid, (w = wrap ++ mid ∨ (¬ wrap <+: w ∧ mid = w)) ↔ removeprefix w wrap = mid := by
    intro mid
    constructor
    · rintro (rfl | ⟨hn, rfl⟩)
      · exact removeprefix_append _ _
      · unfold removeprefix
        rw [if_neg]
        simp only [startsWith, Bool.and_eq_true, List.isPrefixOf_iff_prefix]
        exact fun hh => hn hh.2
    · rintro rfl
      unfold removeprefix
      split
      · rename_i hh
        simp only [startsWith, Bool.and_eq_true, List.isPrefixOf_iff_prefix] at hh
        obtain ⟨t, rfl⟩ := hh.2
        left; simp
      · rename_i hh
        simp only [startsWith, Bool.and_eq_true, List.isPrefixOf_iff_prefix, not_and] at hh
        by_cases hw : wrap = []
        · left; simp [hw]
        · right; exact ⟨hh (by simp [hw]), rfl⟩
  have hs : ∀ mid, (mid = body ++ wrap ∨ (¬ wrap <:+ mid ∧ body = mid)) ↔ removesuffix mid wrap = body := by
    intro mid
    constructor
    · rintro (rfl | ⟨hn, rfl⟩)
      · exact removesuffix_append _ _
      · unfold removesuffix
        rw [if_neg]
        simp only [endsWith, Bool.and_eq_true, List.isSuffixOf_iff_suffix]
        exact fun hh => hn hh.2
    · rintro rfl
      unfold removesuffix
      split
      · rename_i hh
        simp only [endsWith, Bool.and_eq_true, List.isSuffixOf_iff_suffix] at hh
        obtain ⟨t, rfl⟩ := hh.2
        left; simp
      · rename_i hh
        simp only [endsWith, Bool.and_eq_true, List.isSuffixOf_iff_suffix, not_and] at hh
        by_cases hw : wrap = []
        · left; simp [hw]
        · right; exact ⟨hh (by simp [hw]), rfl⟩
  unfold Unwraps
  constructor
  · rintro ⟨mid, h1, h2⟩
    rw [(hp mid).1 h1]; exact (hs mid).1 h2
  · intro h
    exact ⟨_, (hp _).2 rfl, (hs _).2 h⟩

/-! ## Patterns -/

theorem untilClose_length {s a b : Str} (h : untilClose s = some (a, b)) : s = a ++ ']' :: b := by
  induction s generalizing a with
  | nil => simp [untilClose] at h
  | cons c cs ih =>
    simp only [untilClose] at h
    split at h
    · rename_i hc
      simp only [Option.some.injEq, Prod.mk.injEq] at h
      obtain ⟨rfl, rfl⟩ := h
      simp at hc; simp [hc]
    · cases hu : untilClose cs with
      | none => rw [hu] at h; simp at h
      | some q =>
        rw [hu] at h
        simp only [Option.some.injEq, Prod.mk.injEq] at h
        obtain ⟨rfl, rfl⟩ := h
        rw [ih (a := q.1) hu]; rfl

theorem bracketSplit_length {s a b : Str} (h : bracketSplit s = some (a, b)) : s = a ++ ']' :: b := by
  unfold bracketSplit at h
  split at h <;> try
    (rw [Option.map_eq_some_iff] at h
     obtain ⟨q, hq, e⟩ := h
     simp only [Prod.mk.injEq] at e
     obtain ⟨rfl, rfl⟩ := e
     rw [untilClose_length hq]; rfl)
  exact untilClose_length h

theorem globToksN_stable (n m : Nat) (p : Str) (hn : p.length ≤ n) (hm : p.length ≤ m) :
    globToksN n p = globToksN m p := by
  induction n generalizing m p with
  | zero =>
    cases p with
    | nil => cases m <;> simp [globToksN]
    | cons c cs => simp at hn
  | succ n ih =>
    cases m with
    | zero =>
      cases p with
      | nil => simp [globToksN]
      | cons c cs => simp at hm
    | succ m =>
      cases p with
      | nil => simp [globToksN]
      | cons c cs =>
        simp only [List.length_cons, Nat.add_le_add_iff_right] at hn hm
        by_cases h1 : c = '*'
        · subst h1; simp only [globToksN]; rw [ih m cs hn hm]
        by_cases h2 : c = '?'
        · subst h2; simp only [globToksN]; rw [ih m cs hn hm]
        by_cases h3 : c = '['
        · subst h3; simp only [globToksN]
          cases hb : bracketSplit cs with
          | none => simp only; rw [ih m cs hn hm]
          | some q =>
            have hl := congrArg List.length (bracketSplit_length (a := q.1) (b := q.2) hb)
            simp at hl
            simp only; rw [ih m q.2 (by omega) (by omega)]
        · simp only [globToksN]; rw [ih m cs hn hm]

theorem globToks_nil : globToks [] = [] := rfl

theorem globToks_star (p : Str) : globToks ('*' :: p) = .star :: globToks p := rfl

theorem globToks_any (p : Str) : globToks ('?' :: p) = .any :: globToks p := rfl

theorem globToks_lit {c : Char} (p : Str) (h1 : c ≠ '*') (h2 : c ≠ '?') (h3 : c ≠ '[') :
    globToks (c :: p) = .lit c :: globToks p := by
  simp [globToks, globToksN]

theorem globToks_bracket {p a b : Str} (h : bracketSplit p = some (a, b)) :
    globToks ('[' :: p) = bracketSet a :: globToks b := by
  have hl := congrArg List.length (bracketSplit_length h)
  simp at hl
  simp only [globToks, List.length_cons, globToksN, h]
  rw [globToksN_stable p.length b.length b (by omega) (Nat.le_refl _)]

theorem globToks_unclosed {p : Str} (h : bracketSplit p = none) :
    globToks ('[' :: p) = .lit '[' :: globToks p := by
  simp only [globToks, List.length_cons, globToksN, h]

theorem untilClose_none {p : Str} (h : ']' ∉ p) : untilClose p = none := by
  induction p with
  | nil => rfl
  | cons c cs ih =>
    have hc : c ≠ ']' := fun e => h (by simp [e])
    simp [untilClose, hc, ih (fun hh => h (by simp [hh]))]

theorem untilClose_some {cs : Str} (p : Str) (h : ']' ∉ cs) : untilClose (cs ++ ']' :: p) = some (cs, p) := by
  induction cs with
  | nil => simp [untilClose]
  | cons c cs ih =>
    have hc : c ≠ ']' := fun e => h (by simp [e])
    simp [untilClose, hc, ih (fun hh => h (by simp [hh]))]

theorem bracketSplit_none {p : Str} (h : ']' ∉ p) : bracketSplit p = none := by
  unfold bracketSplit
  split
  · rw [untilClose_none (fun hh => h (by simp [hh]))]; rfl
  · rw [untilClose_none (fun hh => h (by simp [hh]))]; rfl
  · exact absurd (by simp) h
  · exact untilClose_none h

theorem bracketSplit_some {cs : Str} (p : Str) (hne : cs ≠ []) (h : ']' ∉ cs) (hb : cs ≠ ['!']) :
    bracketSplit (cs ++ ']' :: p) = some (cs, p) := by
  match cs, hne with
  | c :: cs, _ =>
    have hc : c ≠ ']' := fun e => h (by simp [e])
    have hcs : ']' ∉ cs := fun hh => h (by simp [hh])
    by_cases h1 : c = '!'
    · subst h1
      match cs with
      | [] => exact absurd rfl hb
      | d :: ds =>
        have hd : d ≠ ']' := fun e => hcs (by simp [e])
        have e := untilClose_some p hcs
        unfold bracketSplit
        split
        · rename_i he; simp only [List.cons_append, List.cons.injEq, true_and] at he; exact absurd he.1 hd
        · rename_i he
          simp only [List.cons_append, List.cons.injEq, true_and] at he
          rw [← he]; rw [List.cons_append] at e; rw [e]; rfl
        · rename_i he; simp at he
        · rename_i _ hx _; exact absurd rfl (hx _)
    · unfold bracketSplit
      split
      · rename_i he; simp only [List.cons_append, List.cons.injEq] at he; exact absurd he.1 h1
      · rename_i he; simp only [List.cons_append, List.cons.injEq] at he; exact absurd he.1 h1
      · rename_i he; simp only [List.cons_append, List.cons.injEq] at he; exact absurd he.1 hc
      · exact untilClose_some p h

theorem Spec.Members.items {cs : Str} {rs : List (Char × Char)} (h : Members cs rs) : bracketItems cs = rs := by
  induction h with
  | nil => rfl
  | hyphen => rfl
  | @one c cs rs h1 h2 hm ih =>
    unfold bracketItems
    split
    · rename_i he
      simp only [List.cons.injEq] at he
      obtain ⟨-, rfl⟩ := he
      cases hm with
      | one h => exact absurd rfl h
      | range h => exact absurd rfl h
    · rename_i he
      simp only [List.cons.injEq] at he
      obtain ⟨rfl, rfl⟩ := he
      rw [ih]
    · rename_i he; simp at he
  | range h1 h2 h3 h4 hm ih => simp [bracketItems, ih]

theorem Spec.Inside.items {cs : Str} {rs : List (Char × Char)} (h : Inside cs rs) : bracketItems cs = rs := by
  cases h with
  | members h => exact h.items
  | @hyphen cs rs h =>
    have := h.items
    unfold bracketItems
    split
    · rename_i he
      simp only [List.cons.injEq] at he
      obtain ⟨-, rfl⟩ := he
      cases h with
      | one h => exact absurd rfl h
      | range h => exact absurd rfl h
    · rename_i he
      simp only [List.cons.injEq] at he
      obtain ⟨rfl, rfl⟩ := he
      rw [this]
    · rename_i he; simp at he

theorem Spec.Inside.noClose {cs : Str} {rs : List (Char × Char)} (h : Inside cs rs) : ']' ∉ cs := by
  have hm : ∀ {cs rs}, Members cs rs → ']' ∉ cs := by
    intro cs rs h
    induction h with
    | nil => simp
    | hyphen => simp
    | one h1 h2 _ ih => simp [ih, Ne.symm h2]
    | range h1 h2 h3 h4 _ ih => simp [ih, Ne.symm h2, Ne.symm h3]
  cases h with
  | members h => exact hm h
  | hyphen h => simp [hm h]

/-- The first range begins with the first character and is not empty. -/
theorem Spec.Inside.first {cs : Str} {rs : List (Char × Char)} (h : Inside cs rs) (hne : cs ≠ []) :
    ∃ r rs', rs = r :: rs' ∧ cs.head? = some r.1 ∧ r.1.toNat ≤ r.2.toNat := by
  cases h with
  | members h =>
    cases h with
    | nil => exact absurd rfl hne
    | hyphen => exact ⟨_, _, rfl, rfl, Nat.le_refl _⟩
    | one => exact ⟨_, _, rfl, rfl, Nat.le_refl _⟩
    | range h1 h2 h3 h4 => exact ⟨_, _, rfl, rfl, h4⟩
  | hyphen h => exact ⟨_, _, rfl, rfl, Nat.le_refl _⟩

theorem any_has (rs : List (Char × Char)) (d : Char) :
    rs.any (fun r => GRange.has r d) = true ↔ InRanges rs d := by
  rw [List.any_eq_true]
  unfold InRanges GRange.has
  simp

theorem Spec.Inside.dropBackward {cs : Str} {rs : List (Char × Char)} (h : Inside cs rs) : Verif.dropBackward cs = cs := by
  unfold Verif.dropBackward
  split
  · rename_i x y rest
    rw [if_neg]
    intro hlt
    cases h with
    | members h =>
      cases h with
      | one _ _ hm => cases hm with
        | one h1 => exact h1 rfl
        | range h1 => exact h1 rfl
      | range _ _ _ h4 => omega
    | hyphen h => cases h with
      | one h1 => exact h1 rfl
      | range h1 => exact h1 rfl
  · rfl

theorem bracketSet_pos {cs : Str} {rs : List (Char × Char)} (h : Inside cs rs)
    (hb : cs.head? ≠ some '!') : bracketSet cs = .set false rs := by
  unfold bracketSet
  split
  · exact absurd rfl hb
  · rw [h.dropBackward]
    split
    · exact absurd rfl hb
    · exact absurd rfl hb
    · rw [h.items]

theorem bracketSet_neg {cs : Str} {rs : List (Char × Char)} (h : Inside cs rs) :
    bracketSet ('!' :: cs) = .set true rs := by
  simp only [bracketSet, h.items]

theorem mem_suffixes {s t : Str} : t ∈ suffixes s ↔ ∃ a, s = a ++ t := by
  induction s with
  | nil =>
    simp only [suffixes, List.mem_singleton]
    constructor
    · rintro rfl; exact ⟨[], rfl⟩
    · rintro ⟨a, h⟩; simp at h; exact h.2
  | cons c cs ih =>
    simp only [suffixes, List.mem_cons, ih]
    constructor
    · rintro (rfl | ⟨a, rfl⟩)
      · exact ⟨[], rfl⟩
      · exact ⟨c :: a, rfl⟩
    · rintro ⟨a, h⟩
      cases a with
      | nil => left; exact h.symm
      | cons d a => right; simp at h; exact ⟨a, h.2⟩

theorem globMatch_star (p : List GTok) (s : Str) :
    globMatch (.star :: p) s = true ↔ ∃ a t, s = a ++ t ∧ globMatch p t = true := by
  rw [globMatch, List.any_eq_true]
  constructor
  · rintro ⟨t, ht, h⟩; obtain ⟨a, rfl⟩ := mem_suffixes.1 ht; exact ⟨a, t, rfl, h⟩
  · rintro ⟨a, t, rfl, h⟩; exact ⟨t, mem_suffixes.2 ⟨a, rfl⟩, h⟩

theorem globMatch_one {t : GTok} (ht : t ≠ .star) (p : List GTok) (s : Str) :
    globMatch (t :: p) s = true ↔ ∃ c r, s = c :: r ∧ t.accepts c = true ∧ globMatch p r = true := by
  cases s with
  | nil => cases t <;> simp_all [globMatch]
  | cons c s =>
    have e : globMatch (t :: p) (c :: s) = (t.accepts c && globMatch p s) := by
      cases t <;> simp_all [globMatch]
    rw [e, Bool.and_eq_true]
    constructor
    · intro h; exact ⟨c, s, rfl, h⟩
    · rintro ⟨c', r, e', h⟩
      simp only [List.cons.injEq] at e'
      obtain ⟨rfl, rfl⟩ := e'
      exact h

theorem append_close_inj {a b p q : Str} (ha : ']' ∉ a) (hb : ']' ∉ b)
    (h : a ++ ']' :: p = b ++ ']' :: q) : a = b ∧ p = q := by
  have h1 := untilClose_some p ha
  rw [h, untilClose_some q hb] at h1
  simp only [Option.some.injEq, Prod.mk.injEq] at h1
  exact ⟨h1.1.symm, h1.2.symm⟩

/-- Matching a simple pattern. -/
theorem globMatch_iff {p : Str} (h : SimplePattern p) (s : Str) :
    globMatch (globToks p) s = true ↔ Glob p s := by
  induction h generalizing s with
  | nil =>
    rw [globToks_nil, globMatch, List.isEmpty_iff]
    constructor
    · rintro rfl; exact .nil
    · intro h; cases h; rfl
  | @char c p hc hp ih =>
    by_cases h1 : c = '*'
    · subst h1
      rw [globToks_star, globMatch_star]
      constructor
      · rintro ⟨a, t, rfl, h⟩; exact .star ((ih t).1 h)
      · intro h
        generalize hq : '*' :: p = q at h
        cases h <;> simp only [List.cons.injEq, reduceCtorEq, List.cons_append] at hq
        · obtain ⟨-, rfl⟩ := hq; exact ⟨_, _, rfl, (ih _).2 ‹_›⟩
        · exact absurd hq.1 (by decide)
        · exact absurd hq.1.symm ‹_›
        all_goals exact absurd hq.1 (by decide)
    by_cases h2 : c = '?'
    · subst h2
      rw [globToks_any, globMatch_one (by simp)]
      constructor
      · rintro ⟨a, t, rfl, -, h⟩; exact .any ((ih t).1 h)
      · intro h
        generalize hq : '?' :: p = q at h
        cases h <;> simp only [List.cons.injEq, reduceCtorEq, List.cons_append] at hq
        · exact absurd hq.1 (by decide)
        · obtain ⟨-, rfl⟩ := hq; exact ⟨_, _, rfl, rfl, (ih _).2 ‹_›⟩
        · exact absurd hq.1.symm ‹_›
        all_goals exact absurd hq.1 (by decide)
    rw [globToks_lit p h1 h2 hc, globMatch_one (by simp)]
    constructor
    · rintro ⟨a, t, rfl, ha, h⟩
      simp only [GTok.accepts, beq_iff_eq] at ha
      subst ha
      exact .lit h1 h2 hc ((ih t).1 h)
    · intro h
      generalize hq : c :: p = q at h
      cases h <;> simp only [List.cons.injEq, reduceCtorEq, List.cons_append] at hq
      · exact absurd hq.1 h1
      · exact absurd hq.1 h2
      · obtain ⟨rfl, rfl⟩ := hq; exact ⟨_, _, rfl, by simp [GTok.accepts], (ih _).2 ‹_›⟩
      all_goals exact absurd hq.1 hc
  | @unclosed p hn hp ih =>
    rw [globToks_unclosed (bracketSplit_none hn), globMatch_one (by simp)]
    constructor
    · rintro ⟨a, t, rfl, ha, h⟩
      simp only [GTok.accepts, beq_iff_eq] at ha
      subst ha
      exact .unclosed hn ((ih t).1 h)
    · intro h
      generalize hq : '[' :: p = q at h
      cases h <;> simp only [List.cons.injEq, reduceCtorEq, List.cons_append, true_and] at hq
      · exact absurd hq.1 (by decide)
      · exact absurd hq.1 (by decide)
      · exact absurd hq.1.symm ‹_›
      · exact absurd (hq ▸ by simp) hn
      · exact absurd (hq ▸ by simp) hn
      · subst hq; exact ⟨_, _, rfl, by simp [GTok.accepts], (ih _).2 ‹_›⟩
  | @bracket cs rs p hne hi hh hp ih =>
    have hb := hi.noClose
    rw [List.cons_append, globToks_bracket (bracketSplit_some p hne hb (by rintro rfl; exact hh rfl)),
      bracketSet_pos hi hh, globMatch_one (by simp)]
    have hacc : ∀ c, GTok.accepts (.set false rs) c = true ↔ InRanges rs c := by
      intro c; rw [← any_has]; simp [GTok.accepts]
    constructor
    · rintro ⟨a, t, rfl, ha, h⟩
      exact .bracket hi hh ((hacc a).1 ha) ((ih t).1 h)
    · intro h
      generalize hq : '[' :: (cs ++ ']' :: p) = q at h
      cases h <;> simp only [List.cons.injEq, reduceCtorEq, List.cons_append, true_and] at hq
      · exact absurd hq.1 (by decide)
      · exact absurd hq.1 (by decide)
      · exact absurd hq.1.symm ‹_›
      · rename_i cs' rs' p' c t h1 h3 h2 _
        obtain ⟨rfl, rfl⟩ := append_close_inj hb h1.noClose hq
        have : rs = rs' := by rw [← hi.items, h1.items]
        subst this
        exact ⟨_, _, rfl, (hacc c).2 h2, (ih _).2 ‹_›⟩
      · rename_i cs' rs' p' c t _ h1 h2 _
        rw [← List.cons_append] at hq
        obtain ⟨rfl, rfl⟩ := append_close_inj hb (by simp [h1.noClose]) hq
        exact absurd rfl hh
      · rename_i h2 _; exact absurd (hq ▸ by simp) h2
  | @negated cs rs p hne hi hp ih =>
    have hb := hi.noClose
    have hb' : ']' ∉ '!' :: cs := by simp [hb]
    rw [show '[' :: '!' :: cs ++ ']' :: p = '[' :: (('!' :: cs) ++ ']' :: p) from rfl,
      globToks_bracket (bracketSplit_some p (by simp) hb' (by simp [hne])),
      bracketSet_neg hi, globMatch_one (by simp)]
    have hacc : ∀ c, GTok.accepts (.set true rs) c = true ↔ ¬ InRanges rs c := by
      intro c; rw [← any_has]; simp [GTok.accepts]
    constructor
    · rintro ⟨a, t, rfl, ha, h⟩
      exact .negated hne hi ((hacc a).1 ha) ((ih t).1 h)
    · intro h
      generalize hq : '[' :: ('!' :: cs ++ ']' :: p) = q at h
      cases h <;> simp only [List.cons.injEq, reduceCtorEq, List.cons_append, true_and] at hq
      · exact absurd hq.1 (by decide)
      · exact absurd hq.1 (by decide)
      · exact absurd hq.1.symm ‹_›
      · rename_i cs' rs' p' c t h1 h3 h2 _
        rw [← List.cons_append] at hq
        obtain ⟨rfl, rfl⟩ := append_close_inj hb' h1.noClose hq
        exact absurd rfl h3
      · rename_i cs' rs' p' c t _ h1 h2 _
        obtain ⟨rfl, rfl⟩ := append_close_inj hb h1.noClose hq
        have : rs = rs' := by rw [← hi.items, h1.items]
        subst this
        exact ⟨_, _, rfl, (hacc c).2 h2, (ih _).2 ‹_›⟩
      · rename_i h2 _; exact absurd (hq ▸ by simp) h2

end Verif
