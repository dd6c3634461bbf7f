import Verif.Spec.Files
import Verif.Proofs.Names
/-!
# Lemmas about wildcard files
-/

namespace Verif
open Spec

/-! ## Text files -/

theorem splitAt1_sep (p : Char → Bool) (l : Str) (c : Char) (r : Str) (hl : ∀ x ∈ l, p x = false)
    (hc : p c = true) : splitAt1 p (l ++ c :: r) = l :: splitAt1 p r := by
  induction l with
  | nil => simp [splitAt1, hc]
  | cons x l ih =>
    have hx := hl x (by simp)
    rw [List.cons_append, splitAt1, if_neg (by simp [hx]), ih (fun y hy => hl y (by simp [hy]))]
    rfl

theorem splitAt1_none (p : Char → Bool) (l : Str) (hl : ∀ x ∈ l, p x = false) : splitAt1 p l = [l] := by
  induction l with
  | nil => rfl
  | cons x l ih =>
    have hx := hl x (by simp)
    rw [splitAt1, if_neg (by simp [hx]), ih (fun y hy => hl y (by simp [hy]))]
    rfl

theorem universalNewlines_id (l r : Str) (h : '\r' ∉ l) :
    universalNewlines (l ++ r) = l ++ universalNewlines r := by
  induction l with
  | nil => rfl
  | cons x l ih =>
    have hx : x ≠ '\r' := fun e => h (by simp [e])
    rw [List.cons_append, universalNewlines.eq_3 _ _ (by simp [hx]) (by simp [hx]), ih (fun hh => h (by simp [hh]))]
    rfl

theorem fileLines_eq {c : Str} {ls : List Str} (h : Lines c ls) : fileLines c = ls := by
  have hno : ∀ l : Str, '\n' ∉ l → ∀ x ∈ l, (fun y : Char => y == '\n') x = false := by
    intro l hl x hx
    simp only [beq_eq_false_iff_ne]
    exact fun e => hl (e ▸ hx)
  have hn : ((fun y : Char => y == '\n') '\n') = true := rfl
  induction h with
  | @last l h1 h2 =>
    have := universalNewlines_id l [] h2
    simp only [List.append_nil, universalNewlines] at this
    rw [fileLines, this]
    exact splitAt1_none _ l (hno l h1)
  | @nl l r ls h1 h2 _ ih =>
    rw [fileLines, universalNewlines_id l _ h2, universalNewlines.eq_3 _ _ (by simp) (by simp), splitChar,
      splitAt1_sep _ l _ _ (hno l h1) hn]
    exact congrArg (l :: ·) ih
  | @cr l r ls h1 h2 h3 _ ih =>
    have e : universalNewlines ('\r' :: r) = '\n' :: universalNewlines r := by
      cases r with
      | nil => rfl
      | cons d r =>
        have hd : d ≠ '\n' := by simpa using h3
        rw [universalNewlines.eq_2 _ (by intro x hx; simp only [List.cons.injEq] at hx; exact hd hx.1)]
    rw [fileLines, universalNewlines_id l _ h2, e, splitChar,
      splitAt1_sep _ l _ _ (hno l h1) hn]
    exact congrArg (l :: ·) ih
  | @crlf l r ls h1 h2 _ ih =>
    rw [fileLines, universalNewlines_id l _ h2, universalNewlines.eq_1, splitChar,
      splitAt1_sep _ l _ _ (hno l h1) hn]
    exact congrArg (l :: ·) ih

theorem dropWhile_append_all {α : Type} (p : α → Bool) (a b : List α) (h : ∀ x ∈ a, p x = true) :
    (a ++ b).dropWhile p = b.dropWhile p := by
  induction a with
  | nil => rfl
  | cons x a ih =>
    rw [List.cons_append, List.dropWhile_cons, if_pos (h x (by simp)), ih (fun y hy => h y (by simp [hy]))]

theorem dropWhile_head {α : Type} (p : α → Bool) (l : List α) (h : ∀ c, l.head? = some c → p c = false) :
    l.dropWhile p = l := by
  cases l with
  | nil => rfl
  | cons x l => rw [List.dropWhile_cons, if_neg (by simp [h x rfl])]

theorem strip_eq {l t : Str} (h : Stripped l t) : strip l = t := by
  obtain ⟨a, b, rfl, ha, hb, h1, h2⟩ := h
  unfold strip stripP lstripP rstripP
  rw [List.append_assoc, dropWhile_append_all _ _ _ ha]
  by_cases ht : t = []
  · subst ht
    have e : b.dropWhile isSpace = [] := by
      have := dropWhile_append_all isSpace b [] hb
      simpa using this
    simp [e]
  · have e1 : (t ++ b).dropWhile isSpace = t ++ b := by
      apply dropWhile_head
      intro c hc
      apply h1 c
      cases t with
      | nil => exact absurd rfl ht
      | cons x t => simpa using hc
    rw [e1, List.reverse_append, dropWhile_append_all _ _ _ (by intro x hx; exact hb x (List.mem_reverse.1 hx))]
    rw [dropWhile_head _ _ (by intro c hc; apply h2 c; simpa [List.head?_reverse] using hc)]
    simp

theorem stripped_total (l : Str) : ∃ t, Stripped l t := by
  let m := l.dropWhile isSpace
  let b := m.reverse.takeWhile isSpace
  let t := (m.reverse.dropWhile isSpace).reverse
  have hm : m = t ++ b.reverse := by
    have : m.reverse = b ++ m.reverse.dropWhile isSpace := List.takeWhile_append_dropWhile.symm
    have := congrArg List.reverse this
    simpa [t] using this
  have hl : l = l.takeWhile isSpace ++ m := List.takeWhile_append_dropWhile.symm
  refine ⟨t, l.takeWhile isSpace, b.reverse, ?_, ?_, ?_, ?_, ?_⟩
  · rw [List.append_assoc, ← hm]; exact hl
  · intro c hc; exact List.all_eq_true.1 (List.all_takeWhile (l := l) (p := isSpace)) c hc
  · intro c hc
    exact List.all_eq_true.1 (List.all_takeWhile (l := m.reverse) (p := isSpace)) c (List.mem_reverse.1 hc)
  · intro c hc
    have hmc : m.head? = some c := by
      rw [hm]
      cases ht : t with
      | nil => rw [ht] at hc; simp at hc
      | cons x t' => rw [ht] at hc; simpa using hc
    have := List.head?_dropWhile_not isSpace l
    rw [show l.dropWhile isSpace = m from rfl, hmc] at this
    simpa using this
  · intro c hc
    have h2 : (m.reverse.dropWhile isSpace).head? = some c := by
      simpa [t, List.getLast?_reverse] using hc
    have := List.head?_dropWhile_not isSpace m.reverse
    rw [h2] at this
    simpa using this

theorem blank_stripped {l : Str} (h : Blank l) : Stripped l [] :=
  ⟨l, [], by simp, h, by simp [Blank], by simp, by simp⟩

theorem isEmptyLine_iff {l t : Str} (h : Stripped l t) :
    isEmptyLine l = true ↔ t = [] ∨ t.head? = some '#' := by
  simp only [isEmptyLine, strip_eq h, Bool.or_eq_true, beq_iff_eq, startsWith_iff]
  constructor
  · rintro (h | ⟨r, rfl⟩)
    · exact .inl h
    · exact .inr rfl
  · rintro (h | h)
    · exact .inl h
    · right
      cases t with
      | nil => simp at h
      | cons c t => simp at h; subst h; exact ⟨t, rfl⟩

theorem textEntries_eq {ls vs : List Str} (h : TextEntries ls vs) :
    (ls.filter (fun l => !isEmptyLine l)).map strip = vs := by
  induction h with
  | nil => rfl
  | blank hb _ ih =>
    rw [List.filter_cons_of_neg (by simp [(isEmptyLine_iff (blank_stripped hb)).2 (.inl rfl)])]; exact ih
  | comment hs _ ih =>
    rw [List.filter_cons_of_neg (by simp [(isEmptyLine_iff hs).2 (.inr rfl)])]; exact ih
  | entry hs hne hh _ ih =>
    have : ¬ isEmptyLine _ = true := fun hh' => ((isEmptyLine_iff hs).1 hh').elim hne hh
    rw [List.filter_cons_of_pos (by simpa using this), List.map_cons, strip_eq hs, ih]

theorem lines_total (c : Str) : ∃ ls, Lines c ls := by
  have key : ∀ n, ∀ c : Str, c.length ≤ n → ∃ ls, Lines c ls := by
    intro n
    induction n with
    | zero =>
      intro c hc
      cases c with
      | nil => exact ⟨_, .last (by simp) (by simp)⟩
      | cons x c => simp at hc
    | succ n ih =>
      intro c hc
      let p : Char → Bool := fun x => x != '\n' && x != '\r'
      have happ : c.takeWhile p ++ c.dropWhile p = c := List.takeWhile_append_dropWhile
      have hall := List.all_eq_true.1 (List.all_takeWhile (l := c) (p := p))
      have h1 : '\n' ∉ c.takeWhile p := fun hm => by simpa [p] using hall _ hm
      have h2 : '\r' ∉ c.takeWhile p := fun hm => by simpa [p] using hall _ hm
      cases hd : c.dropWhile p with
      | nil =>
        rw [hd, List.append_nil] at happ
        rw [happ] at h1 h2
        exact ⟨_, .last h1 h2⟩
      | cons d r =>
        have hdp : p d = false := by
          have := List.head?_dropWhile_not p c
          rw [hd] at this; simpa using this
        rw [hd] at happ
        have hlen : r.length ≤ n := by
          have := congrArg List.length happ; simp at this; omega
        obtain ⟨ls, h⟩ := ih r hlen
        rw [← happ]
        by_cases hdn : d = '\n'
        · subst hdn; exact ⟨_, .nl h1 h2 h⟩
        · have hdr : d = '\r' := by
            simp only [p, Bool.and_eq_false_iff, bne_eq_false_iff_eq] at hdp
            exact hdp.resolve_left hdn
          subst hdr
          by_cases hr : r.head? = some '\n'
          · cases r with
            | nil => simp at hr
            | cons e r =>
              simp at hr; subst hr
              obtain ⟨ls', h'⟩ := ih r (by simp at hlen; omega)
              exact ⟨_, .crlf h1 h2 h'⟩
          · exact ⟨_, .cr h1 h2 hr h⟩
  exact key _ c (Nat.le_refl _)

theorem textEntries_total (ls : List Str) : ∃ vs, TextEntries ls vs := by
  induction ls with
  | nil => exact ⟨[], .nil⟩
  | cons l ls ih =>
    obtain ⟨vs, h⟩ := ih
    obtain ⟨t, ht⟩ := stripped_total l
    by_cases h0 : t = []
    · subst h0
      refine ⟨vs, .blank ?_ h⟩
      obtain ⟨a, b, rfl, ha, hb, -, -⟩ := ht
      intro c hc
      simp only [List.append_nil, List.mem_append] at hc
      exact hc.elim (ha c) (hb c)
    · by_cases h1 : t.head? = some '#'
      · cases t with
        | nil => exact absurd rfl h0
        | cons c t => simp at h1; subst h1; exact ⟨vs, .comment ht h⟩
      · exact ⟨_, .entry ht h0 h1 h⟩

/-! ## Structured files -/

theorem truthy_iff (j : J) : j.truthy = false ↔ Empty j := by
  constructor
  · intro h
    cases j with
    | null => exact .null
    | bool b => simp [J.truthy] at h; subst h; exact .false
    | num q => simp [J.truthy] at h; subst h; exact .zero
    | str s => simp [J.truthy] at h; subst h; exact .str
    | list l => simp [J.truthy] at h; subst h; exact .list
    | dict d => simp [J.truthy] at h; subst h; exact .dict
  · intro h; cases h <;> simp [J.truthy]

theorem truthy_true_iff (j : J) : j.truthy = true ↔ ¬ Empty j := by
  rw [← truthy_iff]; simp

theorem jget_some {d : List (Option Str × J)} {k : Str} {v : J} : J.get d k = some v ↔ First d k v := by
  induction d with
  | nil => simp only [J.get]; exact ⟨nofun, nofun⟩
  | cons p d ih =>
    obtain ⟨k', v'⟩ := p
    simp only [J.get]
    split
    · rename_i hk
      subst hk
      constructor
      · intro h; simp at h; subst h; exact .here
      · intro h; cases h with
        | here => rfl
        | there hn _ => exact absurd rfl hn
    · rename_i hk
      rw [ih]
      constructor
      · exact .there hk
      · intro h; cases h with
        | here => exact absurd rfl hk
        | there _ h => exact h

theorem jget_none {d : List (Option Str × J)} {k : Str} : J.get d k = none ↔ Missing d k := by
  induction d with
  | nil => simp [J.get, Missing]
  | cons p d ih =>
    obtain ⟨k', v'⟩ := p
    simp only [J.get]
    split
    · rename_i hk
      subst hk
      simp only [reduceCtorEq, Missing, false_iff]
      intro h; exact h v' (by simp)
    · rename_i hk
      rw [ih]
      constructor
      · intro h v hv
        rcases List.mem_cons.1 hv with e | hv
        · simp only [Prod.mk.injEq] at e; exact hk e.1.symm
        · exact h v hv
      · intro h v hv; exact h v (by simp [hv])

theorem floatOf_iff (lib : Lib) (v : J) (q : Rat) : floatOf lib v = some q ↔ Number lib v q := by
  constructor
  · intro h
    cases v with
    | null => simp [floatOf] at h
    | bool b => cases b <;> simp [floatOf] at h <;> subst h <;> constructor
    | num q' => simp [floatOf] at h; subst h; constructor
    | str s => simp [floatOf] at h; exact .str h
    | list l => simp [floatOf] at h
    | dict d => simp [floatOf] at h
  · intro h; cases h <;> simp [floatOf]; assumption

theorem weight_iff (lib : Lib) (d : List (Option Str × J)) (q : Rat) :
    floatOf lib ((J.get d c!"weight").getD (.num 1)) = some q ↔ Weight lib d q := by
  cases hg : J.get d c!"weight" with
  | none =>
    simp only [Option.getD_none, floatOf, Option.some.injEq]
    constructor
    · rintro rfl; exact .absent (jget_none.1 hg)
    · intro h; cases h with
      | given hf _ => rw [jget_some.2 hf] at hg; simp at hg
      | absent _ => rfl
  | some v =>
    simp only [Option.getD_some]
    rw [floatOf_iff]
    constructor
    · exact .given (jget_some.1 hg)
    · intro h; cases h with
      | given hf hn => rw [jget_some.2 hf] at hg; simp at hg; subst hg; exact hn
      | absent hm => rw [jget_none.2 hm] at hg; simp at hg

theorem content_iff (d : List (Option Str × J)) (v : J) :
    (jOr (J.get d c!"text") (J.get d c!"content") = some v ∧ v.truthy = true) ↔ Content d v := by
  constructor
  · rintro ⟨h, hv⟩
    rw [truthy_true_iff] at hv
    cases ht : J.get d c!"text" with
    | none =>
      rw [ht] at h
      simp only [jOr] at h
      refine .content ?_ (jget_some.1 h) hv
      intro u hu; rw [jget_some.2 hu] at ht; simp at ht
    | some u =>
      rw [ht] at h
      simp only [jOr] at h
      split at h
      · simp at h; subst h; exact .text (jget_some.1 ht) hv
      · rename_i hu
        refine .content ?_ (jget_some.1 h) hv
        intro u' hu'
        rw [jget_some.2 hu'] at ht
        simp at ht; subst ht
        rw [← truthy_iff]; simpa using hu
  · intro h
    cases h with
    | text hf hv =>
      rw [← truthy_true_iff] at hv
      rw [jget_some.2 hf]
      exact ⟨by simp [jOr, hv], hv⟩
    | content hu hf hv =>
      rw [← truthy_true_iff] at hv
      refine ⟨?_, hv⟩
      rw [jget_some.2 hf]
      cases ht : J.get d c!"text" with
      | none => rfl
      | some u =>
        have := (truthy_iff u).2 (hu u (jget_some.1 ht))
        simp [jOr, this]

theorem rpartition2_some {s w c : Str} (h : rpartition2 s = some (w, c)) :
    s = w ++ ':' :: ':' :: c ∧ ¬ [':', ':'] <:+: ':' :: c := by
  have hnone : ∀ s : Str, rpartition2 s = none → ¬ [':', ':'] <:+: s := by
    intro s
    induction s with
    | nil => simp
    | cons x s ih =>
      intro h
      simp only [rpartition2] at h
      cases hr : rpartition2 s with
      | some q => rw [hr] at h; simp at h
      | none =>
        rw [hr] at h
        simp only at h
        rw [List.infix_cons_iff]
        rintro (hp | hi)
        · split at h
          · simp at h
          · rename_i hx
            cases s with
            | nil => simp [List.cons_prefix_cons] at hp
            | cons y s =>
              simp only [List.cons_prefix_cons, List.nil_prefix, and_true] at hp
              obtain ⟨rfl, rfl⟩ := hp
              exact hx _ rfl rfl
        · exact ih hr hi
  induction s generalizing w with
  | nil => simp [rpartition2] at h
  | cons x s ih =>
    simp only [rpartition2] at h
    cases hr : rpartition2 s with
    | some q =>
      rw [hr] at h
      simp only [Option.some.injEq, Prod.mk.injEq] at h
      obtain ⟨rfl, rfl⟩ := h
      obtain ⟨e, hn⟩ := ih (w := q.1) hr
      exact ⟨by rw [e]; rfl, hn⟩
    | none =>
      rw [hr] at h
      simp only at h
      split at h
      · simp only [Option.some.injEq, Prod.mk.injEq] at h
        obtain ⟨rfl, rfl⟩ := h
        exact ⟨rfl, hnone _ hr⟩
      · simp at h

theorem rpartition2_of {w c : Str} (h : ¬ [':', ':'] <:+: ':' :: c) :
    rpartition2 (w ++ ':' :: ':' :: c) = some (w, c) := by
  have hnone : ∀ s : Str, ¬ [':', ':'] <:+: s → rpartition2 s = none := by
    intro s hs
    cases hr : rpartition2 s with
    | none => rfl
    | some q =>
      have := (rpartition2_some (w := q.1) (c := q.2) hr).1
      exact absurd ⟨q.1, q.2, by rw [this]; simp⟩ hs
  induction w with
  | nil =>
    simp only [List.nil_append, rpartition2]
    have e := hnone _ h
    simp only [rpartition2] at e
    rw [e]
  | cons x w ih =>
    rw [List.cons_append]
    unfold rpartition2
    rw [ih]

theorem stringItem_eq (lib : Lib) (s : Str) (hs : s ≠ []) :
    (∃ q content, Weighted lib s q content ∧ stringItem lib s = ⟨content, some q⟩) ∨
    ((∀ q content, ¬ Weighted lib s q content) ∧ stringItem lib s = ⟨s, none⟩) := by
  cases s with
  | nil => exact absurd rfl hs
  | cons c s =>
    simp only [stringItem]
    by_cases hd : lib.isDigit c = true
    · simp only [hd, if_true]
      cases hr : rpartition2 (c :: s) with
      | none =>
        right
        refine ⟨?_, rfl⟩
        rintro q content ⟨w, c', e, hn, -, -, -⟩
        rw [e, rpartition2_of hn] at hr
        simp at hr
      | some p =>
        obtain ⟨e, hn⟩ := rpartition2_some (w := p.1) (c := p.2) hr
        cases hf : lib.float p.1 with
        | some q =>
          left
          exact ⟨q, p.2, ⟨p.1, c, e, hn, rfl, hd, hf⟩, by simp [hf]⟩
        | none =>
          right
          refine ⟨?_, by simp [hf]⟩
          rintro q content ⟨w, c', e', hn', -, -, hf'⟩
          rw [e', rpartition2_of hn'] at hr
          simp only [Option.some.injEq] at hr
          rw [← hr] at hf
          simp [hf'] at hf
    · right
      simp only [hd, Bool.false_eq_true, if_false]
      refine ⟨?_, trivial⟩
      rintro q content ⟨w, c', -, -, hc, hd', -⟩
      simp only [List.head?_cons, Option.some.injEq] at hc
      subst hc; exact hd hd'

theorem weighted_unique {lib : Lib} {s content content' : Str} {q q' : Rat}
    (h : Weighted lib s q content) (h' : Weighted lib s q' content') : q = q' ∧ content = content' := by
  obtain ⟨w, c, e, hn, -, -, hf⟩ := h
  obtain ⟨w', c', e', hn', -, -, hf'⟩ := h'
  have h1 := rpartition2_of (w := w) hn
  rw [← e, e', rpartition2_of hn'] at h1
  simp only [Option.some.injEq, Prod.mk.injEq] at h1
  obtain ⟨rfl, rfl⟩ := h1
  rw [hf] at hf'
  simp at hf'
  exact ⟨hf', rfl⟩

theorem entries_parseList {lib : Lib} {l : List J} {is : List Item} (h : Entries lib l is) :
    parseList lib l = some is := by
  induction h with
  | nil => rfl
  | @empty j l is he _ ih => simp only [parseList, (truthy_iff j).2 he, Bool.not_false, if_true]; exact ih
  | @weighted s q content l is hw _ ih =>
    have hs : s ≠ [] := by
      obtain ⟨w, c, rfl, -⟩ := hw; simp
    have ht : (J.str s).truthy = true := by simp [J.truthy, hs]
    simp only [parseList, ht, Bool.not_true, Bool.false_eq_true, if_false, ih, Option.map_some]
    rcases stringItem_eq lib s hs with ⟨q', c', hw', e⟩ | ⟨hn, -⟩
    · obtain ⟨rfl, rfl⟩ := weighted_unique hw hw'
      rw [e]
    · exact absurd hw (hn _ _)
  | @plain s l is hs hn _ ih =>
    have ht : (J.str s).truthy = true := by simp [J.truthy, hs]
    simp only [parseList, ht, Bool.not_true, Bool.false_eq_true, if_false, ih, Option.map_some]
    rcases stringItem_eq lib s hs with ⟨q', c', hw', e⟩ | ⟨-, e⟩
    · exact absurd hw' (hn _ _)
    · rw [e]
  | @dictWeighted d q v l is hd hw hq hc _ ih =>
    have ht : (J.dict d).truthy = true := by simp [J.truthy, hd]
    obtain ⟨h1, h2⟩ := (content_iff d v).2 hc
    simp only [parseList, ht, Bool.not_true, Bool.false_eq_true, if_false, ih, Option.map_some,
      dictItem, (weight_iff lib d q).2 hw, h1, h2, if_true, hq]
    cases v <;> rfl
  | @dictPlain d v l is hd hw hc _ ih =>
    have ht : (J.dict d).truthy = true := by simp [J.truthy, hd]
    obtain ⟨h1, h2⟩ := (content_iff d v).2 hc
    simp only [parseList, ht, Bool.not_true, Bool.false_eq_true, if_false, ih, Option.map_some,
      dictItem, (weight_iff lib d 1).2 hw, h1, h2, if_true]
    cases v <;> rfl
  | @dictEmpty d q l is hd hw hc _ ih =>
    have ht : (J.dict d).truthy = true := by simp [J.truthy, hd]
    simp only [parseList, ht, Bool.not_true, Bool.false_eq_true, if_false, ih, Option.map_some,
      dictItem, (weight_iff lib d q).2 hw]
    cases hj : jOr (J.get d c!"text") (J.get d c!"content") with
    | none => rfl
    | some v =>
      by_cases hv : v.truthy = true
      · exact absurd ((content_iff d v).1 ⟨hj, hv⟩) (hc v)
      · simp [hv]
  | @number q l is _ ih =>
    simp only [parseList]; split <;> exact ih
  | @bool q l is _ ih =>
    simp only [parseList]; split <;> exact ih
  | @list q l is _ ih =>
    simp only [parseList]; split <;> exact ih

theorem badWeight_cons {lib : Lib} {j : J} {l : List J} (h : BadWeight lib (j :: l)) :
    (∃ d, j = .dict d ∧ d ≠ [] ∧ ∀ q, ¬ Weight lib d q) ∨ BadWeight lib l := by
  obtain ⟨d, hm, hd⟩ := h
  rcases List.mem_cons.1 hm with e | hm
  · exact .inl ⟨d, e.symm, hd⟩
  · exact .inr ⟨d, hm, hd⟩

theorem badWeight_parseList {lib : Lib} {l : List J} (h : BadWeight lib l) : parseList lib l = none := by
  induction l with
  | nil => obtain ⟨d, hm, -⟩ := h; simp at hm
  | cons j l ih =>
    rcases badWeight_cons h with ⟨d, rfl, hd, hw⟩ | h
    · have ht : (J.dict d).truthy = true := by simp [J.truthy, hd]
      have hf : floatOf lib ((J.get d c!"weight").getD (.num 1)) = none := by
        cases hf : floatOf lib ((J.get d c!"weight").getD (.num 1)) with
        | none => rfl
        | some q => exact absurd ((weight_iff lib d q).1 hf) (hw q)
      simp only [parseList, ht, Bool.not_true, Bool.false_eq_true, if_false, dictItem, hf]
    · have := ih h
      simp only [parseList]
      split
      · exact this
      · split
        · rw [this]; rfl
        · split
          · rfl
          · rw [this]; rfl
        · exact this

/-- Every list is either read or bad. -/
theorem entries_or_bad (lib : Lib) (l : List J) : (∃ is, Entries lib l is) ∨ BadWeight lib l := by
  induction l with
  | nil => exact .inl ⟨[], .nil⟩
  | cons j l ih =>
    rcases ih with ⟨is, h⟩ | h
    · by_cases he : Empty j
      · exact .inl ⟨_, .empty he h⟩
      · cases j with
        | null => exact absurd .null he
        | bool b => exact .inl ⟨_, .bool h⟩
        | num q => exact .inl ⟨_, .number h⟩
        | list l' => exact .inl ⟨_, .list h⟩
        | str s =>
          have hs : s ≠ [] := by rintro rfl; exact he .str
          rcases stringItem_eq lib s hs with ⟨q, c, hw, -⟩ | ⟨hn, -⟩
          · exact .inl ⟨_, .weighted hw h⟩
          · exact .inl ⟨_, .plain hs hn h⟩
        | dict d =>
          have hd : d ≠ [] := by rintro rfl; exact he .dict
          by_cases hw : ∃ q, Weight lib d q
          · obtain ⟨q, hw⟩ := hw
            by_cases hc : ∃ v, Content d v
            · obtain ⟨v, hc⟩ := hc
              by_cases hq : q = 1
              · subst hq; exact .inl ⟨_, .dictPlain hd hw hc h⟩
              · exact .inl ⟨_, .dictWeighted hd hw hq hc h⟩
            · exact .inl ⟨_, .dictEmpty hd hw (fun v hv => hc ⟨v, hv⟩) h⟩
          · exact .inr ⟨d, by simp, hd, fun q hq => hw ⟨q, hq⟩⟩
    · obtain ⟨d, hm, hd⟩ := h
      exact .inr ⟨d, by simp [hm], hd⟩

/-- Reading a list of key lists, with a prefix. -/
def readLists (lib : Lib) (pre : List Str) (ls : List (List Str × List J)) : List (Str × List Item) :=
  ls.filterMap fun p => (parseList lib p.2).map fun is => (pyJoin ['/'] (pre ++ p.1), is)

theorem parseDict_keyLists {lib : Lib} {d : List (Option Str × J)} {ls : List (List Str × List J)}
    (h : KeyLists d ls) (pre : List Str) : parseDict lib pre d = readLists lib pre ls := by
  induction h generalizing pre with
  | nil => simp [parseDict, readLists]
  | otherKey _ ih => simp only [parseDict]; exact ih pre
  | null _ ih => simp only [parseDict, parseValue, List.nil_append]; exact ih pre
  | bool _ ih => simp only [parseDict, parseValue, List.nil_append]; exact ih pre
  | num _ ih => simp only [parseDict, parseValue, List.nil_append]; exact ih pre
  | emptyStr _ ih => simp only [parseDict, parseValue, List.isEmpty_nil, if_true, List.nil_append]; exact ih pre
  | emptyList _ ih => simp only [parseDict, parseValue, List.isEmpty_nil, if_true, List.nil_append]; exact ih pre
  | @str k s d ls hs _ ih =>
    simp only [parseDict, parseValue, List.isEmpty_iff, hs, if_false]
    rw [ih pre]
    simp only [readLists, List.filterMap_cons]
    cases parseList lib [.str s] <;> simp
  | @list k l d ls hs _ ih =>
    simp only [parseDict, parseValue, List.isEmpty_iff, hs, if_false]
    rw [ih pre]
    simp only [readLists, List.filterMap_cons]
    cases parseList lib l <;> simp
  | @dict k d' ls' d ls _ _ ih1 ih2 =>
    simp only [parseDict, parseValue]
    rw [ih1, ih2]
    simp only [readLists, List.filterMap_append, List.filterMap_map]
    congr 2
    funext p
    simp

theorem collections_readLists {lib : Lib} {ls : List (List Str × List J)} {out : List (Str × List Item)}
    (h : Collections lib ls out) : readLists lib [] ls = out := by
  induction h with
  | nil => rfl
  | bad hb _ ih => simp only [readLists, List.filterMap_cons, badWeight_parseList hb, Option.map_none]; exact ih
  | good he _ ih =>
    simp only [readLists, List.filterMap_cons, entries_parseList he, Option.map_some, List.nil_append]
    rw [pyJoin_eq_intercalate]
    exact congrArg _ ih

mutual
theorem keyLists_total : ∀ d : List (Option Str × J), ∃ ls, KeyLists d ls
  | [] => ⟨[], .nil⟩
  | (none, v) :: d => by obtain ⟨ls, h⟩ := keyLists_total d; exact ⟨ls, .otherKey h⟩
  | (some k, v) :: d => by
    obtain ⟨ls, h⟩ := keyLists_total d
    exact keyLists_value k v d ls h
theorem keyLists_value (k : Str) : ∀ (v : J) (d : List (Option Str × J)) (ls : List (List Str × List J)),
    KeyLists d ls → ∃ ls', KeyLists ((some k, v) :: d) ls'
  | .null, _, _, h => ⟨_, .null h⟩
  | .bool _, _, _, h => ⟨_, .bool h⟩
  | .num _, _, _, h => ⟨_, .num h⟩
  | .str [], _, _, h => ⟨_, .emptyStr h⟩
  | .str (c :: s), _, _, h => ⟨_, .str (by simp) h⟩
  | .list [], _, _, h => ⟨_, .emptyList h⟩
  | .list (c :: s), _, _, h => ⟨_, .list (by simp) h⟩
  | .dict d', _, _, h => by
    obtain ⟨ls', h'⟩ := keyLists_total d'
    exact ⟨_, .dict h' h⟩
end

theorem collections_total (lib : Lib) (ls : List (List Str × List J)) : ∃ out, Collections lib ls out := by
  induction ls with
  | nil => exact ⟨[], .nil⟩
  | cons p ls ih =>
    obtain ⟨out, h⟩ := ih
    rcases entries_or_bad lib p.2 with ⟨is, he⟩ | hb
    · exact ⟨_, .good he h⟩
    · exact ⟨_, .bad hb h⟩

end Verif
