import Verif.Model.Translate
import Verif.Proofs.Translate
import Verif.Props.Names
import Mathlib.Data.List.Forall2
/-!
# Matching without going back (C106)

The regular expression CPython builds from a pattern takes the first place where the text between two stars fits, and never
tries another one.  It matches the same names as trying everything.
-/

namespace Verif.Props
open Verif Verif.Spec

theorem mem_suffixes_iff {s t : Str} : t ∈ suffixes s ↔ t <:+ s := by
  induction s with
  | nil => simp [suffixes]
  | cons c s ih => simp [suffixes, ih, List.suffix_cons_iff]

theorem globMatch_star_suffix {p : List GTok} {s : Str} : globMatch (.star :: p) s = true ↔ ∃ t, t <:+ s ∧ globMatch p t = true := by
  rw [globMatch, List.any_eq_true]
  simp only [mem_suffixes_iff]

theorem globMatch_star_mono {p : List GTok} {s t : Str} (h : t <:+ s) (hm : globMatch (.star :: p) t = true) :
    globMatch (.star :: p) s = true := by
  obtain ⟨u, hu, hp⟩ := globMatch_star_suffix.1 hm
  exact globMatch_star_suffix.2 ⟨u, hu.trans h, hp⟩

theorem globMatch_star_star {p : List GTok} {s : Str} : globMatch (.star :: .star :: p) s = globMatch (.star :: p) s := by
  rw [Bool.eq_iff_iff]
  constructor
  · intro h
    obtain ⟨t, ht, hp⟩ := globMatch_star_suffix.1 h
    exact globMatch_star_mono ht hp
  · intro h
    exact globMatch_star_suffix.2 ⟨s, List.suffix_refl s, h⟩

theorem globMatch_fixed {q : List GTok} (hq : GTok.star ∉ q) (p : List GTok) (s : Str) :
    globMatch (q ++ p) s = true ↔ ∃ t, fixedAt q s = some t ∧ globMatch p t = true := by
  induction q generalizing s with
  | nil => simp [fixedAt]
  | cons t q ih =>
    have ht : t ≠ .star := fun e => hq (e ▸ List.mem_cons_self ..)
    have ih := ih fun h => hq (List.mem_cons_of_mem _ h)
    cases s with
    | nil => cases t <;> simp_all [globMatch, fixedAt]
    | cons c s =>
      have e : globMatch (t :: q ++ p) (c :: s) = (t.accepts c && globMatch (q ++ p) s) := by
        cases t <;> first | exact absurd rfl ht | rfl
      rw [e, Bool.and_eq_true, ih]
      simp only [fixedAt]
      by_cases h : t.accepts c = true <;> simp [h]

theorem squeeze_match (p : List GTok) (s : Str) :
    globMatch (squeeze false p) s = globMatch p s ∧ globMatch (.star :: squeeze true p) s = globMatch (.star :: p) s := by
  induction p generalizing s with
  | nil => exact ⟨rfl, rfl⟩
  | cons t p ih =>
    have hstar : ∀ {p q : List GTok}, (∀ s, globMatch p s = globMatch q s) → ∀ s, globMatch (.star :: p) s = globMatch (.star :: q) s := by
      intro p q h s
      simp only [globMatch, h]
    cases t with
    | star =>
      refine ⟨?_, ?_⟩
      · simp only [squeeze, Bool.false_eq_true, if_false]
        exact (ih s).2
      · simp only [squeeze, if_true]
        rw [globMatch_star_star]
        exact (ih s).2
    | _ =>
      have h1 : ∀ t : GTok, t ≠ .star → ∀ s, globMatch (t :: squeeze false p) s = globMatch (t :: p) s := by
        intro t ht s
        cases s with
        | nil => cases t <;> first | exact absurd rfl ht | rfl
        | cons c s =>
          have := (ih s).1
          cases t <;> first | exact absurd rfl ht | simp only [globMatch, this]
      exact ⟨h1 _ (by simp) s, hstar (h1 _ (by simp)) s⟩

/-- Pieces put together again. -/
def unpieces : List (List GTok) → List GTok
  | [] => []
  | q :: qs => q ++ qs.flatMap (.star :: ·)

theorem pieces_spec (p : List GTok) : unpieces (pieces p) = p ∧ pieces p ≠ [] ∧ ∀ q ∈ pieces p, GTok.star ∉ q := by
  induction p with
  | nil => simp [pieces, unpieces]
  | cons t p ih =>
    obtain ⟨h1, h2, h3⟩ := ih
    obtain ⟨q, qs, hq⟩ := List.exists_cons_of_ne_nil h2
    rw [hq] at h1 h3
    have h4 : ∀ t : GTok, t ≠ .star → pieces (t :: p) = (t :: q) :: qs := by
      intro t ht
      cases t <;> first | exact absurd rfl ht | simp only [pieces, hq]
    by_cases ht : t = .star
    · subst ht
      simp only [pieces, hq]
      refine ⟨?_, by simp, List.forall_mem_cons.2 ⟨by simp, h3⟩⟩
      rw [← h1]
      simp [unpieces]
    · rw [h4 t ht]
      obtain ⟨h5, h6⟩ := List.forall_mem_cons.1 h3
      refine ⟨?_, by simp, List.forall_mem_cons.2 ⟨?_, h6⟩⟩
      · rw [← h1]; rfl
      · intro h
        rcases List.mem_cons.1 h with h | h
        · exact ht h.symm
        · exact h5 h

theorem rxMatch_ones (q : List GTok) (xs : List Rx) (s : Str) :
    rxMatch (q.map .one ++ xs) s = true ↔ ∃ t, fixedAt q s = some t ∧ rxMatch xs t = true := by
  induction q generalizing s with
  | nil => simp [fixedAt]
  | cons t q ih =>
    cases s with
    | nil => simp [rxMatch, Rx.results, fixedAt]
    | cons c s =>
      simp only [List.map_cons, List.cons_append, rxMatch, Rx.results, fixedAt]
      by_cases h : t.accepts c = true
      · simp [h, ih]
      · simp [h]

theorem fixedAt_drop {q : List GTok} {s t : Str} (h : fixedAt q s = some t) : q.length ≤ s.length ∧ t = s.drop q.length := by
  induction q generalizing s with
  | nil => simp_all [fixedAt]
  | cons x q ih =>
    cases s with
    | nil => simp [fixedAt] at h
    | cons c s =>
      simp only [fixedAt] at h
      split at h
      · have := ih h
        exact ⟨by simpa using this.1, this.2⟩
      · cases h

theorem suffix_drop {s t : Str} {n : Nat} (h : t <:+ s) (hn : n ≤ t.length) : t.drop n <:+ s.drop n := by
  obtain ⟨u, rfl⟩ := h
  rw [List.drop_append]
  refine ⟨(u ++ t).drop n |>.take ((u ++ t).length - n - (t.length - n)), ?_⟩
  have : t.drop n = ((u ++ t).drop n).drop ((u ++ t).length - n - (t.length - n)) := by
    rw [List.drop_drop, List.length_append, show n + (u.length + t.length - n - (t.length - n)) = u.length + n by omega, ← List.drop_drop,
      List.drop_left]
  rw [this, List.take_append_drop, List.drop_append]

theorem starred_match (qs : List (List GTok)) (hq : ∀ q ∈ qs, GTok.star ∉ q) (s : Str) :
    rxMatch (starred qs) s = globMatch (qs.flatMap (.star :: ·)) s := by
  induction qs generalizing s with
  | nil => rfl
  | cons q qs ih =>
    obtain ⟨h1, h2⟩ := List.forall_mem_cons.1 hq
    have ih := ih h2
    cases qs with
    | nil =>
      rw [Bool.eq_iff_iff]
      simp only [starred, rxMatch, Rx.results, List.any_reverse, List.any_eq_true, mem_suffixes_iff, List.flatMap_cons, List.flatMap_nil,
        List.append_nil, globMatch_star_suffix]
      refine exists_congr fun t => and_congr_right fun _ => ?_
      have e1 := rxMatch_ones q [] t
      have e2 := globMatch_fixed h1 [] t
      rw [List.append_nil] at e1 e2
      rw [e1, e2]
      rfl
    | cons q' qs =>
      rw [Bool.eq_iff_iff]
      simp only [starred, rxMatch, Rx.results]
      rw [show ((q :: q' :: qs).flatMap (GTok.star :: ·)) = .star :: (q ++ (q' :: qs).flatMap (GTok.star :: ·)) by simp, globMatch_star_suffix]
      simp only [globMatch_fixed h1]
      rw [List.any_eq_true]
      constructor
      · rintro ⟨t, ht, hm⟩
        obtain ⟨u, hu, hut⟩ := List.mem_filterMap.1 (List.mem_of_mem_take ht)
        exact ⟨u, mem_suffixes_iff.1 hu, t, hut, by rw [← ih]; exact hm⟩
      · rintro ⟨u, hu, t, hut, hm⟩
        have hmem := List.mem_filterMap.2 ⟨u, mem_suffixes_iff.2 hu, hut⟩
        -- the first place where the pieces fit
        have first : ∀ s : Str, u <:+ s → ∃ t0, ((suffixes s).filterMap (fixedAt q)).take 1 = [t0] ∧ t <:+ t0 := by
          intro s
          induction s with
          | nil =>
            intro h
            rw [List.suffix_nil.1 h] at hut
            exact ⟨t, by simp [suffixes, hut], List.suffix_refl t⟩
          | cons c s ihs =>
            intro h
            cases hc : fixedAt q (c :: s) with
            | some t0 =>
              refine ⟨t0, by simp [suffixes, hc], ?_⟩
              rw [(fixedAt_drop hc).2, (fixedAt_drop hut).2]
              exact suffix_drop h (fixedAt_drop hut).1
            | none =>
              rcases List.suffix_cons_iff.1 h with rfl | h
              · rw [hut] at hc; cases hc
              · obtain ⟨t0, h0, h1⟩ := ihs h
                exact ⟨t0, by simp only [suffixes, List.filterMap_cons, hc]; exact h0, h1⟩
        obtain ⟨t0, h0, hsuf⟩ := first s hu
        refine ⟨t0, by rw [h0]; simp, ?_⟩
        rw [ih]
        rw [show ((q' :: qs).flatMap (GTok.star :: ·)) = .star :: (q' ++ qs.flatMap (GTok.star :: ·)) by simp] at hm ⊢
        exact globMatch_star_mono hsuf hm

theorem translate_match (toks : List GTok) (name : Str) : rxMatch (translate toks) name = globMatch toks name := by
  unfold translate
  rw [← (squeeze_match toks name).1]
  obtain ⟨h1, h2, h3⟩ := pieces_spec (squeeze false toks)
  obtain ⟨q, qs, hq⟩ := List.exists_cons_of_ne_nil h2
  rw [hq] at h1 h3
  rw [hq, ← h1]
  obtain ⟨h4, h5⟩ := List.forall_mem_cons.1 h3
  rw [Bool.eq_iff_iff]
  simp only [unpieces]
  rw [rxMatch_ones, globMatch_fixed h4]
  simp only [starred_match qs h5]

/-- **C106.**  The regular expression CPython builds matches the same names as trying every way to divide the name among the
stars of the pattern: taking the first fit between two stars never loses a match. -/
theorem first_fit_suffices (name pat : Str) : fnmatchRx name pat = fnmatch name pat :=
  translate_match _ _

/-- Pieces that accept the same. -/
def SameTok (a b : GTok) : Prop := (a = .star ↔ b = .star) ∧ ∀ c, a.accepts c = b.accepts c

theorem SameTok.rfl (a : GTok) : SameTok a a := ⟨Iff.rfl, fun _ => Eq.refl _⟩

theorem globMatch_same {p q : List GTok} (h : List.Forall₂ SameTok p q) (s : Str) : globMatch p s = globMatch q s := by
  induction h generalizing s with
  | nil => rfl
  | @cons a b p q hab _ ih =>
    by_cases ha : a = .star
    · have hb := hab.1.1 ha
      subst ha; subst hb
      simp only [globMatch, ih]
    · have hb : b ≠ .star := fun e => ha (hab.1.2 e)
      have step : ∀ (t : GTok) (l : List GTok) (c : Char) (s : Str), t ≠ .star → globMatch (t :: l) (c :: s) = (t.accepts c && globMatch l s) := by
        intro t l c s ht
        cases t <;> first | exact absurd rfl ht | rfl
      have stop : ∀ (t : GTok) (l : List GTok), t ≠ .star → globMatch (t :: l) [] = false := by
        intro t l ht
        cases t <;> first | exact absurd rfl ht | rfl
      cases s with
      | nil => rw [stop a p ha, stop b q hb]
      | cons c s => rw [step a p c s ha, step b q c s hb, hab.2, ih]

theorem classMeaning_not_star {body more : Str} {t : GTok} {r : Str} (h : classMeaning body more = some (t, r)) : t ≠ .star := by
  unfold classMeaning at h
  split at h
  · cases h; simp
  · cases h; simp
  · obtain ⟨p, _, e⟩ := Option.map_eq_some_iff.1 h
    cases e; simp
  · obtain ⟨p, _, e⟩ := Option.map_eq_some_iff.1 h
    cases e; simp

theorem bracketSet_not_star (body : Str) : bracketSet body ≠ .star := by
  unfold bracketSet
  repeat' split
  all_goals simp

theorem reToksN_same (n : Nat) (pat : Str) : ∃ toks, reToksN n pat = some toks ∧ List.Forall₂ SameTok toks (globToksN n pat) := by
  induction n generalizing pat with
  | zero => exact ⟨[], rfl, .nil⟩
  | succ n ih =>
    have step : ∀ (t : GTok) (cs : Str), ∃ toks, (reToksN n cs).map (t :: ·) = some toks ∧ List.Forall₂ SameTok toks (t :: globToksN n cs) := by
      intro t cs
      obtain ⟨toks, h1, h2⟩ := ih cs
      exact ⟨t :: toks, by rw [h1]; rfl, .cons (.rfl t) h2⟩
    unfold reToksN globToksN
    split
    · rename_i h; cases h
    · exact ⟨[], rfl, .nil⟩
    · rename_i h; cases h; exact step _ _
    · rename_i h; cases h; exact step _ _
    · rename_i m cs h
      cases h
      simp only
      cases hb : bracketSplit cs with
      | none => exact step _ _
      | some p =>
        obtain ⟨body, rest⟩ := p
        obtain ⟨t, ht, hs⟩ := bracket_meaning hb []
        obtain ⟨toks, h1, h2⟩ := ih rest
        simp only [ht]
        refine ⟨t :: toks, by rw [h1]; rfl, .cons ⟨?_, hs⟩ h2⟩
        exact ⟨fun e => absurd e (classMeaning_not_star ht), fun e => absurd e (bracketSet_not_star body)⟩
    · rename_i m c cs h1 h2 h3 h
      cases h
      simp only
      exact step _ _

/-- **C106.**  Whatever the pattern, the regular expression CPython builds from it is a valid one, and it matches exactly what
the pattern means: every piece of the name is found by trying all ways, with sets of characters as the bracket expressions say. -/
theorem every_pattern_valid (name pat : Str) : fnmatchRe name pat = some (fnmatch name pat) := by
  obtain ⟨toks, h1, h2⟩ := reToksN_same pat.length pat
  unfold fnmatchRe fnmatch globToks
  rw [h1, Option.map_some, translate_match, globMatch_same h2]

/-- **C106.**  What follows a bracket expression has no influence on its meaning, and it accepts the characters of its set. -/
theorem brackets_keep_apart {s body rest : Str} (h : bracketSplit s = some (body, rest)) (more : Str) :
    ∃ t, classMeaning body more = some (t, more) ∧ ∀ c, t.accepts c = (bracketSet body).accepts c :=
  bracket_meaning h more

/-- **C106.**  So the regular expression matches exactly the names the shell rules say. -/
theorem regex_follows_shell (pat name : Str) (h : SimplePattern pat) : fnmatchRe name pat = some true ↔ Glob pat name := by
  rw [every_pattern_valid, Option.some.injEq]
  exact pattern_matches pat name h

/-- `a*b*c`: the first `b` is taken. -/
example : fnmatchRx c!"a-b-b-c" c!"a*b*c" = true ∧ fnmatchRx c!"a-b-b-d" c!"a*b*c" = false := by decide +kernel

/-- Without the last star it is not the first fit that counts: `*ab` against `abab`. -/
example : fnmatchRx c!"abab" c!"*ab" = true ∧ fnmatchRx c!"xababab/" c!"x**ab?[/]" = false ∧
    fnmatchRx c!"xabababz/" c!"x**ab?[/]" = true := by decide +kernel

/-- Ranges out of order, an initial `]`, a `^`, a hyphen at the end, a backslash. -/
example : fnmatchRe c!"b" c!"[z-a!c]" = some true ∧ fnmatchRe c!"c" c!"[z-a!c]" = some false ∧
    fnmatchRe c!"]x" c!"[]^-]?" = some true ∧ fnmatchRe c!"-" c!"[]^-]" = some true ∧ fnmatchRe c!"a" c!"[z-a]" = some false ∧
    fnmatchRe c!"a" c!"[!z-a]" = some true ∧ fnmatchRe c!"\\" c!"[\\]" = some true ∧ fnmatchRe c!"[a" c!"[a" = some true := by
  decide +kernel

end Verif.Props
