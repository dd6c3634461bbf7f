import Verif.Proofs.Wrap
/-!
# Properties of the text helpers (C21 string part, C22, C23, C24)
-/

namespace Verif.Props
open Verif Verif.Spec

/-- C21 (string part). Every string has exactly one decomposition into words, squashing keeps the
words and separates them by single spaces, with nothing before or after. -/
theorem squash_normal_form (s : Str) :
    ∃ ws, Words s ws ∧ (∀ ws', Words s ws' → ws' = ws) ∧
      OneSpaced (squashWhitespace s) ws ∧ Words (squashWhitespace s) ws := by
  refine ⟨pySplit s, words_pySplit s, fun ws' h => (pySplit_of_words h).symm, ⟨?_, ?_⟩, ?_⟩
  · exact words_mem (words_pySplit s)
  · exact pyJoin_eq_intercalate _ _
  · exact words_pyJoin _ (words_mem (words_pySplit s))

/-- C21 (string part). Squashing twice is squashing once. -/
theorem squash_idempotent (s : Str) :
    squashWhitespace (squashWhitespace s) = squashWhitespace s := by
  have h := words_pyJoin (pySplit s) (words_mem (words_pySplit s))
  show pyJoin _ (pySplit (pyJoin _ (pySplit s))) = _
  rw [pySplit_of_words h]; rfl

/-- C21 (string part). Every character of a squashed text that is whitespace is the space U+0020,
the text neither starts nor ends with whitespace, and no two spaces are adjacent. -/
theorem squash_no_runs (s : Str) :
    (∀ c ∈ squashWhitespace s, isSpace c = true → c = ' ') ∧
    (∀ c r, squashWhitespace s = c :: r → isSpace c = false) ∧
    (∀ c r, squashWhitespace s = r ++ [c] → isSpace c = false) ∧
    (∀ a b, squashWhitespace s ≠ a ++ [' ', ' '] ++ b) := by
  obtain ⟨hw, hj⟩ : (∀ w ∈ pySplit s, Word w) ∧ squashWhitespace s = pyJoin [' '] (pySplit s) :=
    ⟨words_mem (words_pySplit s), rfl⟩
  rw [hj]
  generalize pySplit s = ws at hw
  clear hj
  induction ws with
  | nil => simp [pyJoin]
  | cons w ws ih =>
    have ⟨hne, hns⟩ := hw w (by simp)
    obtain ⟨i1, i2, i3, i4⟩ := ih (fun v hv => hw v (by simp [hv]))
    have hfirst : ∀ (t : Str) c r, w ++ t = c :: r → isSpace c = false := by
      intro t c r he
      cases w with
      | nil => exact absurd rfl hne
      | cons d w => simp at he; exact he.1 ▸ hns d (by simp)
    have hlast : ∀ c r, w = r ++ [c] → isSpace c = false := by
      intro c r he; exact hns c (by simp [he])
    cases ws with
    | nil =>
      simp only [pyJoin]
      refine ⟨?_, ?_, hlast, ?_⟩
      · intro c hc h; simp [hns c hc] at h
      · intro c r he; exact hfirst [] c r (by simpa using he)
      · intro a b he
        have := hns ' ' (by simp [he])
        simp [isSpace] at this
    | cons v vs =>
      rw [pyJoin_cons _ _ _ (by simp)]
      have hjne : pyJoin [' '] (v :: vs) ≠ [] := by
        have := (hw v (by simp)).1
        cases vs <;> simp [pyJoin, this]
      refine ⟨?_, ?_, ?_, ?_⟩
      · intro c hc h
        simp only [List.append_assoc, List.mem_append, List.mem_singleton] at hc
        rcases hc with hc | hc | hc
        · simp [hns c hc] at h
        · exact hc
        · exact i1 c hc h
      · intro c r he; exact hfirst _ c r (by simpa [List.append_assoc] using he)
      · intro c r he
        obtain ⟨j, x, hx⟩ : ∃ j x, pyJoin [' '] (v :: vs) = j ++ [x] :=
          ⟨_, _, (List.dropLast_concat_getLast hjne).symm⟩
        rw [hx, ← List.append_assoc] at he
        have := List.append_inj' he rfl
        simp at this
        exact this.2 ▸ i3 x j hx
      · intro a b he
        have hsp : ∀ c ∈ w, c ≠ ' ' := by
          intro c hc h; have := hns c hc; rw [h] at this; simp [isSpace] at this
        have key : ∀ (w a : Str) (t b : Str), (∀ c ∈ w, c ≠ ' ') → (∀ c r, t = c :: r → c ≠ ' ') →
            (∀ a b, t ≠ a ++ [' ', ' '] ++ b) → w ++ [' '] ++ t ≠ a ++ [' ', ' '] ++ b := by
          intro w
          induction w with
          | nil =>
            intro a t b _ h1 h2 he
            cases a with
            | nil => simp at he; exact h1 ' ' b he rfl
            | cons x a => simp at he; exact h2 a b (by simp [he.2])
          | cons y w ih =>
            intro a t b h0 h1 h2 he
            cases a with
            | nil => simp at he; exact h0 y (by simp) he.1
            | cons x a =>
              simp at he
              exact ih a t b (fun c hc => h0 c (by simp [hc])) h1 h2 (by simp [he.2])
        refine key w a _ b hsp ?_ i4 he
        intro c r hcr h
        have := i2 c r hcr
        rw [h] at this; simp [isSpace] at this

-- A concrete instance: leading, trailing, repeated and non-ASCII whitespace.
example : squashWhitespace c!" a \t\n b　c  " = c!"a b c" := by decide
example : Words c!" a  b " [c!"a", c!"b"] := words_pySplit c!" a  b "

/-- C22. Joining a single result returns it unchanged, whatever the separator. -/
theorem joined_single (sep x : Str) : joined sep [x] = x := rfl

/-- C22. Joining with the empty separator is concatenation. -/
theorem joined_empty_separator (l : List Str) : joined [] l = l.flatten := joined_nil_sep l

/-- C22. In general (number of results other than one) the result is the texts in order with the
separator between them, from which one separator is removed at the start if there is one and
then one at the end if there still is one. -/
theorem joined_general (sep : Str) (l : List Str) (hl : l.length ≠ 1) :
    ∃ pre post, List.intercalate sep l = pre ++ joined sep l ++ post ∧
      (pre = sep ∨ (pre = [] ∧ ¬ ∃ t, List.intercalate sep l = sep ++ t)) ∧
      (post = sep ∨ (post = [] ∧ ¬ ∃ t, joined sep l = t ++ sep)) := by
  have hj : joined sep l =
      if sep.isEmpty then pyJoin sep l else removesuffix (removeprefix (pyJoin sep l) sep) sep := by
    match l, hl with
    | [], _ => rfl
    | x :: y :: r, _ => rfl
  rw [← pyJoin_eq_intercalate, hj]
  generalize pyJoin sep l = j
  cases sep with
  | nil => exact ⟨[], [], by simp, Or.inl rfl, Or.inl rfl⟩
  | cons c sep =>
    simp only [List.isEmpty_cons, Bool.false_eq_true, if_false]
    rcases removeprefix_cases j (c :: sep) with ⟨t, ht, hr⟩ | ⟨hn, hr⟩
    · rw [hr]
      rcases removesuffix_cases t (c :: sep) with ⟨u, hu, hr'⟩ | ⟨hn', hr'⟩
      · exact ⟨c :: sep, c :: sep, by rw [hr', ht, hu]; simp, Or.inl rfl, Or.inl rfl⟩
      · exact ⟨c :: sep, [], by rw [hr', ht]; simp, Or.inl rfl, Or.inr ⟨rfl, by rw [hr']; exact hn'⟩⟩
    · rw [hr]
      rcases removesuffix_cases j (c :: sep) with ⟨u, hu, hr'⟩ | ⟨hn', hr'⟩
      · exact ⟨[], c :: sep, by rw [hr', hu]; simp, Or.inr ⟨rfl, hn⟩, Or.inl rfl⟩
      · exact ⟨[], [], by rw [hr']; simp, Or.inr ⟨rfl, hn⟩, Or.inr ⟨rfl, by rw [hr']; exact hn'⟩⟩

example : joined c!", " [c!"a", c!"b", c!""] = c!"a, b" := by decide
example : joined c!"," [c!"", c!"", c!"x"] = c!",x" := by decide
example : joined c!"," [c!",x,"] = c!",x," := by decide

/-- C23. A wrapper with a marker: `wrapper = p ++ marker ++ q` with the marker leftmost and of
maximal length, and the result is `p ++ inner ++ q`.  Without a marker the inner text is appended. -/
theorem wrap_spec (wrapper inner : Str) :
    ((∀ a m b, wrapper = a ++ m ++ b → ¬ IsMark m) ∧ wrapWith wrapper inner = wrapper ++ inner) ∨
    (∃ p m q, wrapper = p ++ m ++ q ∧ IsMark m ∧
      (∀ a m' b, wrapper = a ++ m' ++ b → IsMark m' → p.length ≤ a.length) ∧
      (∀ m' b, wrapper = p ++ m' ++ b → IsMark m' → m'.length ≤ m.length) ∧
      wrapWith wrapper inner = p ++ inner ++ q) := by
  rw [wrapWith_eq]
  cases h : wrapSearch wrapper with
  | none => exact Or.inl ⟨wrapSearch_none _ h, by simp [splitWrapper, h]⟩
  | some pq =>
    obtain ⟨p, q⟩ := pq
    obtain ⟨m, h1, h2, h3, h4⟩ := wrapSearch_some _ _ _ h
    exact Or.inr ⟨p, m, q, h1, h2, h3, h4, by simp [splitWrapper, h]⟩

/-- C23. The inner text survives verbatim: wrapping is injective in it. -/
theorem wrap_injective (wrapper a b : Str) (h : wrapWith wrapper a = wrapWith wrapper b) : a = b := by
  simpa [wrapWith_eq] using h

example : wrapWith c!"A.. [....] b…" c!"in" = c!"A.. [in] b…" := by decide
example : IsMark c!"...." := Or.inr ⟨4, by decide, by decide⟩
example : wrapWith c!"A.." c!"in" = c!"A..in" := by decide

/-- C24. `dedupe` keeps exactly the items whose key did not occur at an earlier position, in order. -/
theorem dedupe_first_occurrences {α κ : Type} [DecidableEq κ] (key : α → κ) (l : List α) :
    dedupe key l =
      (l.zipIdx.filter (fun xi => key xi.1 ∉ (l.take xi.2).map key)).map Prod.fst := by
  suffices h : ∀ n, n ≤ l.length → dedupe key (l.take n) =
      ((l.take n).zipIdx.filter (fun xi => key xi.1 ∉ (l.take xi.2).map key)).map Prod.fst by
    simpa using h l.length (Nat.le_refl _)
  intro n
  induction n with
  | zero => intro _; simp [dedupe, dedupeAux]
  | succ n ih =>
    intro hn
    have ih := ih (by omega)
    have hlt : n < l.length := by omega
    rw [List.take_succ_eq_append_getElem hlt, dedupe_snoc, ih, List.zipIdx_append, List.filter_append,
      List.map_append]
    congr 1
    simp only [List.zipIdx_singleton, List.length_take, Nat.zero_add, Nat.min_eq_left (Nat.le_of_lt hlt)]
    by_cases hm : key l[n] ∈ (l.take n).map key
    · have : ((l.take n).map key).contains (key l[n]) = true := by simpa using hm
      rw [this]
      rw [List.map_take] at hm
      simp [hm]
    · have : ((l.take n).map key).contains (key l[n]) = false := by simpa using hm
      rw [this]
      rw [List.map_take] at hm
      simp [hm]

/-- C24. The result is a subsequence with pairwise different keys and all keys of the input. -/
theorem dedupe_spec {α κ : Type} [DecidableEq κ] (key : α → κ) (l : List α) :
    (dedupe key l).Sublist l ∧ ((dedupe key l).map key).Nodup ∧
      (∀ k, k ∈ (dedupe key l).map key ↔ k ∈ l.map key) := by
  refine ⟨dedupeAux_sublist key [] l, dedupeAux_nodup key [] l, ?_⟩
  intro k
  constructor
  · intro h
    obtain ⟨x, hx, rfl⟩ := List.mem_map.1 h
    exact List.mem_map_of_mem ((dedupeAux_sublist key [] l).subset hx)
  · have : ∀ (l : List α) (seen : List κ), k ∈ l.map key → k ∈ seen ∨ k ∈ (dedupeAux key seen l).map key := by
      intro l
      induction l with
      | nil => simp
      | cons x xs ih =>
        intro seen hk
        simp only [dedupeAux]
        rcases List.mem_cons.1 (by simpa using hk : k ∈ key x :: xs.map key) with rfl | hk
        · split
          · rename_i h; left; simpa using h
          · right; simp
        · split
          · exact ih seen hk
          · rcases ih (key x :: seen) hk with h | h
            · rcases List.mem_cons.1 h with rfl | h
              · right; simp
              · exact Or.inl h
            · right; simp only [List.map_cons, List.mem_cons]; exact Or.inr h
    intro h
    rcases this l [] h with h | h
    · simp at h
    · exact h

/-- C24. `dedupe` is idempotent. -/
theorem dedupe_idempotent {α κ : Type} [DecidableEq κ] (key : α → κ) (l : List α) :
    dedupe key (dedupe key l) = dedupe key l :=
  dedupeAux_self key [] _ (dedupeAux_nodup key [] l) (by simp)

example : dedupe (fun x : Nat => x % 3) [1, 4, 2, 7, 3, 5] = [1, 2, 3] := by decide

end Verif.Props
