import Verif.Model.Manager
import Verif.Proofs.Names
/-!
# Properties of wildcard names and patterns (C25, C26, C30)
-/

namespace Verif.Props
open Verif Spec

/-! ## C25 Wildcard names are canonicalised and cannot escape the root -/

/-- C25: cleaning is determined by the segments of the name, however it is wrapped and however its
separators are spelled: it fails exactly if a segment contains `..`, and otherwise returns the
segments joined by single slashes. -/
theorem clean_by_segments (wrap w body : Str) (segs : List Str)
    (hu : Unwraps wrap w body) (hs : Spells body segs) :
    ((∃ seg ∈ segs, ['.', '.'] <:+: seg) → cleanWildcard wrap w = none) ∧
    ((¬ ∃ seg ∈ segs, ['.', '.'] <:+: seg) →
      cleanWildcard wrap w = some (List.intercalate ['/'] segs)) := by
  rw [unwraps_iff] at hu
  subst hu
  rw [cleanWildcard_eq wrap w hs, pyJoin_eq_intercalate]
  exact ⟨fun h => if_pos h, fun h => if_neg h⟩

/-- C25: every name has such segments, so the previous theorem covers all names. -/
theorem clean_by_segments_total (wrap w : Str) : ∃ body segs, Unwraps wrap w body ∧ Spells body segs := by
  obtain ⟨segs, h⟩ := spells_total (removesuffix (removeprefix w wrap) wrap)
  exact ⟨_, segs, (unwraps_iff wrap w _).2 rfl, h⟩

/-- C25: two spellings of the same segments are the same wildcard. -/
theorem clean_spelling_irrelevant (wrap w w' body body' : Str) (segs : List Str)
    (hu : Unwraps wrap w body) (hu' : Unwraps wrap w' body')
    (hs : Spells body segs) (hs' : Spells body' segs) :
    cleanWildcard wrap w = cleanWildcard wrap w' := by
  rw [unwraps_iff] at hu hu'
  subst hu hu'
  rw [cleanWildcard_eq wrap w hs, cleanWildcard_eq wrap w' hs']

/-- C25: a cleaned name is canonical. -/
theorem clean_canonical (wrap w n : Str) (h : cleanWildcard wrap w = some n) : CanonicalName n := by
  obtain ⟨segs, hs⟩ := spells_total (removesuffix (removeprefix w wrap) wrap)
  have hc := cleanWildcard_eq wrap w hs
  rw [h] at hc
  split at hc
  · simp at hc
  rename_i hd
  simp only [Option.some.injEq] at hc
  subst hc
  have hsegs : ∀ seg ∈ segs, seg ≠ [] ∧ '/' ∉ seg := fun x hx =>
    ⟨(spells_segs hs x hx).1, slash_not_mem (spells_segs hs x hx).2⟩
  refine ⟨fun hh => hd ((dots_infix_pyJoin segs).1 hh), ?_, ?_, ?_, ?_⟩
  · intro hh
    rcases mem_pyJoin segs hh with h' | ⟨s, hs', h'⟩
    · exact absurd h' (by decide)
    · exact (spells_segs hs s hs').2 _ h' (.inr rfl)
  · clear hs hd h
    induction segs with
    | nil => simp [pyJoin]
    | cons x r ih =>
      have hx := hsegs x (by simp)
      have hno : ∀ (a b : Str), '/' ∉ a → a ≠ [] → ['/', '/'] <:+: a ++ b → ['/', '/'] <:+: b := by
        intro a b ha _ hh
        clear hx
        induction a with
        | nil => exact hh
        | cons c cs ih2 =>
          rw [List.cons_append, List.infix_cons_iff] at hh
          rcases hh with hh | hh
          · rw [List.cons_prefix_cons] at hh; exact absurd hh.1 (fun e => ha (by simp [← e]))
          · by_cases hz : cs = []
            · subst hz; exact hh
            · exact ih2 (fun hm => ha (by simp [hm])) hz hh
      cases r with
      | nil =>
        intro hh
        have := hno x [] hx.2 hx.1 (by simpa [pyJoin] using hh)
        simp at this
      | cons y r =>
        intro hh
        have e : pyJoin ['/'] (x :: y :: r) = x ++ '/' :: pyJoin ['/'] (y :: r) := by simp [pyJoin]
        rw [e] at hh
        have h1 := hno x _ hx.2 hx.1 hh
        rw [List.infix_cons_iff] at h1
        have hy := hsegs y (by simp)
        obtain ⟨c, cs, rfl⟩ := List.exists_cons_of_ne_nil hy.1
        rcases h1 with h1 | h1
        · rw [List.cons_prefix_cons] at h1
          have h2 := h1.2
          have hc : c = '/' := by
            cases r with
            | nil => simp only [pyJoin, List.cons_prefix_cons] at h2; exact h2.1.symm
            | cons z r => simp only [pyJoin, List.cons_append, List.cons_prefix_cons] at h2; exact h2.1.symm
          exact hy.2 (by simp [hc])
        · exact ih (fun s hs => hsegs s (by simp [hs])) h1
  · rintro ⟨t, ht⟩
    by_cases hz : segs = []
    · subst hz; simp [pyJoin] at ht
    · have := dropWhile_pyJoin segs hsegs [] hz
      rw [List.append_nil, ← ht] at this
      have hl := congrArg List.length this
      have h2 := (List.dropWhile_sublist (p := (· == '/')) (l := t)).length_le
      simp at hl; omega
  · rintro ⟨t, ht⟩
    by_cases hz : segs = []
    · subst hz; simp [pyJoin] at ht
    · have := rstrip_pyJoin segs hsegs [] (.inl rfl) hz
      rw [List.append_nil, ← ht] at this
      have hl := congrArg List.length this
      have h2 := (List.dropWhile_sublist (p := (· == '/')) (l := t.reverse)).length_le
      simp [rstripP] at hl h2; omega

/-- C25: a name with `..` in a segment matches no collection and leaves the manager unchanged;
asking for the file of that name raises `ValueError`. -/
theorem dotdot_matches_nothing {R : Type} (cfg : MgrCfg R) (w body : Str) (segs : List Str)
    (hu : Unwraps cfg.wrap w body) (hs : Spells body segs) (seg : Str) (hm : seg ∈ segs)
    (hd : ['.', '.'] <:+: seg) (s : Mgr R) :
    Mgr.matchCollections cfg w s = .ok [] s ∧ Mgr.getFile cfg w s = .err .value s := by
  have h := (clean_by_segments cfg.wrap w body segs hu hs).1 ⟨seg, hm, hd⟩
  simp [Mgr.matchCollections, Mgr.getFile, h, M.raise, pure, M.pure]

/-- `__a//b\c/__` is the name `a/b/c`. -/
example : cleanWildcard c!"__" c!"__a//b\\c/__" = some c!"a/b/c" := by decide +kernel

example : Unwraps c!"__" c!"__a//b\\c/__" c!"a//b\\c/" ∧ Spells c!"a//b\\c/" [c!"a", c!"b", c!"c"] := by
  refine ⟨(unwraps_iff _ _ _).2 (by decide +kernel), ?_⟩
  exact .seg (seg := ['a']) (by simp) (by simp [Separator]) (.inl rfl) (.sep (.inl rfl)
    (.seg (seg := ['b']) (by simp) (by simp [Separator]) (.inr rfl)
      (.seg (seg := ['c']) (by simp) (by simp [Separator]) (.inl rfl) .nil)))

example : cleanWildcard c!"__" c!"__a/../b__" = none := by decide +kernel

/-! ## C26 Wrapping and cleaning wildcard names are inverse -/

/-- C26: a wrapped name is recognised as a wildcard. -/
theorem wrapped_is_wildcard (wrap name : Str) : isWildcard wrap (toWildcard wrap name) = true := by
  have h1 : startsWith (if startsWith name wrap then name else wrap ++ name) wrap = true := by
    split
    · assumption
    · exact (startsWith_iff _ _).2 ⟨name, rfl⟩
  simp only [isWildcard, Bool.and_eq_true]
  unfold toWildcard
  generalize (if startsWith name wrap then name else wrap ++ name) = n at h1
  dsimp only
  by_cases he : endsWith n wrap = true
  · rw [if_pos he]; exact ⟨h1, he⟩
  · rw [if_neg he]
    obtain ⟨t, rfl⟩ := (startsWith_iff _ _).1 h1
    exact ⟨(startsWith_iff _ _).2 ⟨t ++ wrap, by simp⟩, (endsWith_iff _ _).2 ⟨_, rfl⟩⟩

/-- C26: what is recognised as a wildcard is left alone. -/
theorem wrapping_wildcard (wrap name : Str) (h : isWildcard wrap name = true) :
    toWildcard wrap name = name := by
  simp only [isWildcard, Bool.and_eq_true] at h
  simp [toWildcard, h.1, h.2]

/-- C26: wrapping is idempotent. -/
theorem wrapping_idempotent (wrap name : Str) :
    toWildcard wrap (toWildcard wrap name) = toWildcard wrap name :=
  wrapping_wildcard wrap _ (wrapped_is_wildcard wrap name)

/-- C26: a text is recognised exactly if it starts and ends with the wrap string. -/
theorem is_wildcard_iff (wrap text : Str) :
    isWildcard wrap text = true ↔ wrap <+: text ∧ wrap <:+ text := by
  simp [isWildcard, startsWith, endsWith]

/-- C26: wrapping a name that does not carry the wrap adds it on both sides, unless the wrap overlaps
itself and the name so that one copy already does both. -/
theorem wrapping_plain (wrap name : Str) (h : ¬ wrap <+: name) (h' : ¬ wrap <:+ wrap ++ name) :
    toWildcard wrap name = wrap ++ name ++ wrap := by
  have h1 : startsWith name wrap = false := by
    rw [Bool.eq_false_iff]; intro hh; exact h (List.isPrefixOf_iff_prefix.1 hh)
  have h2 : endsWith (wrap ++ name) wrap = false := by
    rw [Bool.eq_false_iff]; intro hh; exact h' (List.isSuffixOf_iff_suffix.1 hh)
  simp [toWildcard, h1, h2]

/-- C26: cleaning a wrapped name gives the same as cleaning the name, for every name, whether it
carries the wrap on no side, one side or both. -/
theorem clean_wrapped (wrap name : Str) :
    cleanWildcard wrap (toWildcard wrap name) = cleanWildcard wrap name := by
  have key : removesuffix (removeprefix (toWildcard wrap name) wrap) wrap =
      removesuffix (removeprefix name wrap) wrap := by
    by_cases hw : wrap = []
    · subst hw; simp [toWildcard, startsWith, endsWith]
    unfold toWildcard
    by_cases hs : startsWith name wrap = true
    · obtain ⟨t, rfl⟩ := (startsWith_iff _ _).1 hs
      simp only [hs, if_true]
      split
      · rfl
      · rename_i he
        rw [List.append_assoc, removeprefix_append, removesuffix_append, removeprefix_append]
        rcases removesuffix_cases t wrap with ⟨u, h2, -⟩ | h1
        · exfalso; exact he ((endsWith_iff _ _).2 ⟨wrap ++ u, by rw [List.append_assoc, ← h2]⟩)
        · rw [h1.2]
    · have hp : removeprefix name wrap = name := by
        unfold removeprefix; simp [hs]
      simp only [hs, Bool.false_eq_true, if_false]
      split
      · rw [removeprefix_append, hp]
      · rename_i he
        rw [List.append_assoc, removeprefix_append, removesuffix_append, hp]
        rcases removesuffix_cases name wrap with ⟨u, h2, -⟩ | h1
        · exfalso; exact he ((endsWith_iff _ _).2 ⟨wrap ++ u, by rw [List.append_assoc, ← h2]⟩)
        · rw [h1.2]
  unfold cleanWildcard
  rw [key]

/-- Names that overlap the wrap string. -/
example : toWildcard c!"__" c!"_" = c!"___" ∧ cleanWildcard c!"__" c!"___" = some c!"_" := by
  decide +kernel

example : toWildcard c!"__" c!"colours" = c!"__colours__" := by decide +kernel

/-! ## C30 Glob matching of wildcard names -/

/-- C30: a pattern matches exactly the names the shell rules say. -/
theorem pattern_matches (pat name : Str) (h : SimplePattern pat) :
    fnmatch name pat = true ↔ Glob pat name := globMatch_iff h name

/-- A text without pattern characters. -/
def Plain (p : Str) : Prop := ∀ c ∈ p, c ≠ '*' ∧ c ≠ '?' ∧ c ≠ '['

theorem plain_prefix (pre : Str) (h : Plain pre) (toks : List GTok) (pat : Str)
    (hp : globToks pat = toks) (name : Str) :
    globMatch (globToks (pre ++ pat)) name = true ↔ ∃ t, name = pre ++ t ∧ globMatch toks t = true := by
  subst hp
  induction pre generalizing name with
  | nil => simp
  | cons c cs ih =>
    have hc := h c (by simp)
    rw [List.cons_append, globToks_lit _ hc.1 hc.2.1 hc.2.2, globMatch_one (by simp)]
    constructor
    · rintro ⟨d, r, rfl, hd, hr⟩
      simp only [GTok.accepts, beq_iff_eq] at hd
      obtain ⟨t, rfl, ht⟩ := (ih (fun x hx => h x (by simp [hx])) r).1 hr
      exact ⟨t, by simp [hd], ht⟩
    · rintro ⟨t, rfl, ht⟩
      exact ⟨c, cs ++ t, rfl, by simp [GTok.accepts],
        (ih (fun x hx => h x (by simp [hx])) _).2 ⟨t, rfl, ht⟩⟩

/-- C30: a pattern without special characters matches only itself. -/
theorem plain_pattern (pat name : Str) (h : Plain pat) : fnmatch name pat = true ↔ name = pat := by
  have := plain_prefix pat h _ [] rfl name
  rw [List.append_nil] at this
  unfold fnmatch
  rw [this]
  simp [globToks_nil, globMatch, List.isEmpty_iff]

/-- C30: `prefix*` matches exactly the names with that prefix, slashes included. -/
theorem prefix_pattern (pre name : Str) (h : Plain pre) :
    fnmatch name (pre ++ ['*']) = true ↔ pre <+: name := by
  unfold fnmatch
  rw [plain_prefix pre h _ ['*'] rfl name, globToks_star, globToks_nil]
  constructor
  · rintro ⟨t, rfl, -⟩; exact ⟨t, rfl⟩
  · rintro ⟨t, rfl⟩
    exact ⟨t, rfl, (globMatch_star _ _).2 ⟨t, [], by simp, rfl⟩⟩

/-- C30: `*suffix` matches exactly the names with that suffix. -/
theorem suffix_pattern (suf name : Str) (h : Plain suf) :
    fnmatch name ('*' :: suf) = true ↔ suf <:+ name := by
  unfold fnmatch
  rw [globToks_star, globMatch_star]
  constructor
  · rintro ⟨a, t, rfl, ht⟩
    rw [(plain_pattern suf t h).1 ht]
    exact ⟨a, rfl⟩
  · rintro ⟨a, rfl⟩
    exact ⟨a, suf, rfl, (plain_pattern suf suf h).2 rfl⟩

/-- C30: `**/suffix` matches the names that end in the suffix as whole segments, at any depth below
the root. -/
theorem recursive_pattern (suf name : Str) (h : Plain suf) :
    fnmatch name (['*', '*', '/'] ++ suf) = true ↔ ∃ pre, name = pre ++ '/' :: suf := by
  unfold fnmatch
  rw [List.cons_append, globToks_star, globMatch_star]
  have hp : Plain ('/' :: suf) := by
    intro c hc
    rcases List.mem_cons.1 hc with rfl | hc
    · decide
    · exact h c hc
  constructor
  · rintro ⟨a, t, rfl, ht⟩
    obtain ⟨b, rfl⟩ := (suffix_pattern ('/' :: suf) t hp).1 ht
    exact ⟨a ++ b, by simp⟩
  · rintro ⟨pre, rfl⟩
    exact ⟨pre, '/' :: suf, rfl, (suffix_pattern ('/' :: suf) _ hp).2 ⟨[], rfl⟩⟩

/-- C30: a bracket with a range matches one character of the range. -/
theorem range_pattern (x y : Char) (pat name : Str) (hx : x ≠ '!') (hx' : x ≠ ']') (hy : y ≠ ']') :
    fnmatch name ('[' :: x :: '-' :: y :: ']' :: pat) = true ↔
      ∃ c t, name = c :: t ∧ x.toNat ≤ c.toNat ∧ c.toNat ≤ y.toNat ∧ fnmatch t pat = true := by
  have hm : ']' ∉ [x, '-', y] := by simp [Ne.symm hx', Ne.symm hy]
  have hb := bracketSplit_some (cs := [x, '-', y]) pat (by simp) hm (by simp)
  unfold fnmatch
  have e : globToks ('[' :: x :: '-' :: y :: ']' :: pat) = bracketSet [x, '-', y] :: globToks pat :=
    globToks_bracket hb
  rw [e]
  have hset : ∃ items, bracketSet [x, '-', y] = .set false items ∧
      ∀ c, items.any (fun r => GRange.has r c) = true ↔ x.toNat ≤ c.toNat ∧ c.toNat ≤ y.toNat := by
    unfold bracketSet
    split
    · rename_i he; simp only [List.cons.injEq] at he; exact absurd he.1 hx
    · by_cases hlt : y.toNat < x.toNat
      · refine ⟨[], by simp [dropBackward, bracketItems, hlt], ?_⟩
        intro c; simp; omega
      · refine ⟨[(x, y)], ?_, ?_⟩
        · simp only [dropBackward, hlt, if_false]
          split
          · rename_i he; simp at he; exact absurd he.1 hx
          · rename_i he; simp at he; exact absurd he.1 hx
          · simp [bracketItems]
        · intro c; simp [GRange.has]
  obtain ⟨items, e1, hi⟩ := hset
  rw [e1, globMatch_one (by simp)]
  constructor
  · rintro ⟨c, t, rfl, hc, ht⟩
    simp only [GTok.accepts, bne_iff_ne, ne_eq, Bool.not_eq_false] at hc
    exact ⟨c, t, rfl, ((hi c).1 hc).1, ((hi c).1 hc).2, ht⟩
  · rintro ⟨c, t, rfl, h1, h2, ht⟩
    refine ⟨c, t, rfl, ?_, ht⟩
    simp only [GTok.accepts, bne_iff_ne, ne_eq, Bool.not_eq_false]
    exact (hi c).2 ⟨h1, h2⟩

/-- Non-vacuity: characters, ranges and hyphens between brackets. -/
example : SimplePattern c!"a*/[!xy]?[a-c5-]" :=
  .char (by decide) (.char (by decide) (.char (by decide)
    (.negated (cs := c!"xy") (by decide)
      (.members (.one (by decide) (by decide) (.one (by decide) (by decide) .nil)))
      (.char (by decide) (.bracket (cs := c!"a-c5-") (by decide)
        (.members (.range (by decide) (by decide) (by decide) (by decide)
          (.one (by decide) (by decide) .hyphen))) (by decide) .nil)))))

example : fnmatch c!"abc/de/zq-" c!"a*/[!xy]?[a-c5-]" = true ∧
    fnmatch c!"abc/de/zqb" c!"a*/[!xy]?[a-c5-]" = true ∧
    fnmatch c!"abc/de/zqd" c!"a*/[!xy]?[a-c5-]" = false := by decide +kernel

example : fnmatch c!"abc/de/zq" c!"a*/[!xy]?" = true := by decide +kernel

example : fnmatch c!"clothing/colours" c!"**/colours" = true ∧ fnmatch c!"colours" c!"**/colours" = false := by
  decide +kernel

end Verif.Props
