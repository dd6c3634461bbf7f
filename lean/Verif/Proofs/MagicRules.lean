import Verif.Proofs.Bangs
/-!
# The rules of the magic prompt clean-up in context

A rule that applies between two texts leaves the work on the two texts alone.
-/

namespace Verif
open Spec
variable {isWord : Char → Bool}

/-- `subN` with enough fuel, from a given neighbour. -/
def subFrom (m : Option Char → Str → Option (Nat × Str)) (prev : Option Char) (s : Str) : Str :=
  subN m s.length prev s

theorem subN_fuel {m : Option Char → Str → Option (Nat × Str)} {n : Nat} {prev : Option Char} {s : Str}
    (h : s.length ≤ n) : subN m n prev s = subFrom m prev s := by
  unfold subFrom
  induction hn : s.length using Nat.strongRecOn generalizing n prev s with
  | _ len ih =>
    subst hn
    cases s with
    | nil => cases n <;> rfl
    | cons c cs =>
      simp only [List.length_cons] at h ih
      obtain ⟨n, rfl⟩ : ∃ k, n = k + 1 := ⟨n - 1, by omega⟩
      simp only [subN, List.length_cons]
      split
      · rename_i k r _
        have hd : ((c :: cs).drop (k + 1)).length ≤ cs.length := by simp
        rw [ih _ (by omega) (n := n) (by omega) rfl, ih _ (by omega) (n := cs.length) (by omega) rfl]
      · rw [ih _ (Nat.lt_succ_self _) (n := n) (by omega) rfl]

theorem subFrom_nil {m : Option Char → Str → Option (Nat × Str)} {prev : Option Char} : subFrom m prev [] = [] := rfl

theorem subFrom_none {m : Option Char → Str → Option (Nat × Str)} {prev : Option Char} {c : Char} {cs : Str}
    (h : m prev (c :: cs) = none) : subFrom m prev (c :: cs) = c :: subFrom m (some c) cs := by
  unfold subFrom
  simp only [List.length_cons, subN, h]

theorem subFrom_match {m : Option Char → Str → Option (Nat × Str)} {prev : Option Char} {s : Str} {k : Nat} {r : Str}
    (hs : s ≠ []) (h : m prev s = some (k + 1, r)) :
    subFrom m prev s = r ++ subFrom m s[k]? (s.drop (k + 1)) := by
  cases s with
  | nil => exact absurd rfl hs
  | cons c cs =>
    rw [subFrom]
    simp only [List.length_cons, subN, h]
    rw [subN_fuel (by simp)]

theorem subFrom_prev {m : Option Char → Str → Option (Nat × Str)} {p q : Option Char} {s : Str}
    (h : m p s = m q s) : subFrom m p s = subFrom m q s := by
  unfold subFrom
  cases s with
  | nil => rfl
  | cons c cs => simp only [List.length_cons, subN, h]

/-- The neighbour after a text. -/
def lastOr (prev : Option Char) (u : Str) : Option Char := u.getLast?.or prev

theorem lastOr_cons {prev : Option Char} {c : Char} {u : Str} : lastOr prev (c :: u) = lastOr (some c) u := by
  unfold lastOr
  cases u with
  | nil => rfl
  | cons d u =>
    rw [List.getLast?_cons_cons]
    cases h : (d :: u).getLast? with
    | none => simp at h
    | some x => rfl

/-- If the rule finds in each rest of `u` the same with `z` behind it as without, it works on `u` and on `z`. -/
theorem subFrom_split {m : Option Char → Str → Option (Nat × Str)} {prev : Option Char} {u z : Str}
    (H : ∀ prev t, t ≠ [] → t <:+ u → m prev (t ++ z) = m prev t ∧
      ∀ k r, m prev t = some (k, r) → k ≠ 0 ∧ k ≤ t.length) :
    subFrom m prev (u ++ z) = subFrom m prev u ++ subFrom m (lastOr prev u) z := by
  induction hn : u.length using Nat.strongRecOn generalizing prev u with
  | _ len ih =>
    subst hn
    cases u with
    | nil => rfl
    | cons c cs =>
      obtain ⟨h1, h2⟩ := H prev (c :: cs) (by simp) List.suffix_rfl
      cases hm : m prev (c :: cs) with
      | none =>
        rw [List.cons_append, subFrom_none (by rw [← List.cons_append, h1, hm]), subFrom_none hm,
          ih cs.length (by simp) (fun p t ht hs => H p t ht (hs.trans (List.suffix_cons _ _))) rfl, lastOr_cons]
        rfl
      | some x =>
        obtain ⟨k, r⟩ := x
        obtain ⟨h3, h4⟩ := h2 k r hm
        obtain ⟨k, rfl⟩ : ∃ j, k = j + 1 := ⟨k - 1, by omega⟩
        rw [subFrom_match (by simp) (h1.trans hm), subFrom_match (by simp) hm, List.drop_append_of_le_length h4,
          List.getElem?_append_left h4,
          ih _ (by simp only [List.length_drop]; omega)
            (fun p t ht hs => H p t ht (hs.trans (List.drop_suffix _ _))) rfl, List.append_assoc]
        congr 3
        unfold lastOr
        by_cases hk : k + 1 = (c :: cs).length
        · rw [List.drop_of_length_le (by omega)]
          have : (c :: cs).getLast? = (c :: cs)[k]? := by
            rw [List.getLast?_eq_getElem?]
            congr 1
            omega
          rw [this, List.getElem?_eq_getElem h4]
          rfl
        · rw [List.getLast?_drop, if_neg (by omega)]
          cases hl : (c :: cs).getLast? with
          | none => simp at hl
          | some x => rfl

/-- If the rule matches nowhere in `x` (with `b` behind it), it works on `b` only. -/
theorem subFrom_skip {m : Option Char → Str → Option (Nat × Str)} {prev : Option Char} {x b : Str}
    (H : ∀ prev t, t ≠ [] → t <:+ x → m prev (t ++ b) = none) :
    subFrom m prev (x ++ b) = x ++ subFrom m (lastOr prev x) b := by
  induction x generalizing prev with
  | nil => rfl
  | cons c cs ih =>
    rw [List.cons_append, subFrom_none (by simpa using H prev (c :: cs) (by simp) List.suffix_rfl),
      ih fun p t ht hs => H p t ht (hs.trans (List.suffix_cons _ _)), lastOr_cons]
    rfl

/-- A last character that no match ends with, or that replacements end with, stays the last one. -/
theorem subFrom_last {m : Option Char → Str → Option (Nat × Str)} {prev : Option Char} {s : Str} {c : Char} (P : Char → Prop)
    (H : ∀ prev s k r, m prev s = some (k, r) → k ≠ 0 ∧ k ≤ s.length ∧
      ∀ c, (s.take k).getLast? = some c → P c → r.getLast? = some c)
    (hc : s.getLast? = some c) (hsp : P c) : (subFrom m prev s).getLast? = some c := by
  induction hn : s.length using Nat.strongRecOn generalizing prev s with
  | _ len ih =>
    subst hn
    cases s with
    | nil => cases hc
    | cons d ds =>
      cases hm : m prev (d :: ds) with
      | none =>
        rw [subFrom_none hm]
        cases ds with
        | nil => exact hc
        | cons e ds =>
          have := ih _ (by simp) (prev := some d) (s := e :: ds) (by simpa using hc) rfl
          rw [List.getLast?_cons]
          simp [this]
      | some x =>
        obtain ⟨k, r⟩ := x
        obtain ⟨h3, h4, h5⟩ := H _ _ _ _ hm
        obtain ⟨k, rfl⟩ : ∃ j, k = j + 1 := ⟨k - 1, by omega⟩
        rw [subFrom_match (by simp) hm]
        by_cases hk : k + 1 = (d :: ds).length
        · rw [List.drop_of_length_le (by omega), subFrom_nil, List.append_nil]
          exact h5 c (by rw [hk, List.take_length]; exact hc) hsp
        · rw [List.getLast?_append,
            ih _ (by simp only [List.length_drop]; omega) (prev := (d :: ds)[k]?) (s := (d :: ds).drop (k + 1))
              (by rw [List.getLast?_drop, if_neg (by omega)]; exact hc) rfl]
          rfl

/-! ## Runs -/

theorem runLen_le {p : Char → Bool} {s : Str} : runLen p s ≤ s.length := by
  unfold runLen
  exact List.Sublist.length_le (List.takeWhile_sublist _)

/-- A run ends before a last character outside the class. -/
theorem runLen_stop {p : Char → Bool} {t z : Str} {l : Char} (hl : t.getLast? = some l) (hp : p l = false) :
    runLen p (t ++ z) = runLen p t ∧ runLen p t < t.length := by
  induction t with
  | nil => cases hl
  | cons c cs ih =>
    unfold runLen at *
    by_cases hc : p c
    · cases cs with
      | nil => simp only [List.getLast?_singleton, Option.some.injEq] at hl; rw [hl, hp] at hc; cases hc
      | cons d cs =>
        obtain ⟨h1, h2⟩ := ih (by simpa using hl)
        constructor
        · rw [List.cons_append, List.takeWhile_cons_of_pos hc, List.takeWhile_cons_of_pos hc, List.length_cons, h1]
          rfl
        · rw [List.takeWhile_cons_of_pos hc]
          simpa using h2
    · simp [hc]

theorem last_drop {t : Str} {k : Nat} (hk : k < t.length) : (t.drop k).getLast? = t.getLast? := by
  rw [List.getLast?_drop, if_neg (by omega)]

theorem head_drop_append {t z : Str} {k : Nat} (hk : k < t.length) :
    ((t ++ z).drop k).head? = (t.drop k).head? := by
  rw [List.drop_append_of_le_length (by omega)]
  cases h : t.drop k with
  | nil => have := congrArg List.length h; simp at this; omega
  | cons a b => rfl

/-- The first character after a run is in the text or the character behind it. -/
theorem run_first {p : Char → Bool} {x b : Str} {h d : Char} (hb : b.head? = some h) (hp : p h = false)
    (hd : ((x ++ b).drop (runLen p (x ++ b))).head? = some d) : d ∈ x ∨ d = h := by
  induction x with
  | nil =>
    cases b with
    | nil => cases hb
    | cons e b =>
      cases hb
      rw [List.nil_append, show runLen p (h :: b) = 0 by simp [runLen, hp]] at hd
      cases hd
      exact .inr rfl
  | cons c cs ih =>
    by_cases hc : p c
    · have : runLen p (c :: cs ++ b) = runLen p (cs ++ b) + 1 := by simp [runLen, hc]
      rw [this, List.cons_append, List.drop_succ_cons] at hd
      rcases ih hd with h1 | h1
      · exact .inl (by simp [h1])
      · exact .inr h1
    · have : runLen p (c :: cs ++ b) = 0 := by simp [runLen, hc]
      rw [this] at hd
      cases hd
      exact .inl (by simp)

/-- After a run there is an end of the text and all behind it. -/
theorem run_drop {p : Char → Bool} {x b : Str} {h : Char} (hb : b.head? = some h) (hp : p h = false) :
    ∃ x', x' <:+ x ∧ (x ++ b).drop (runLen p (x ++ b)) = x' ++ b := by
  induction x with
  | nil =>
    cases b with
    | nil => cases hb
    | cons e b =>
      cases hb
      exact ⟨[], List.suffix_rfl, by simp [runLen, hp]⟩
  | cons c cs ih =>
    by_cases hc : p c
    · have : runLen p (c :: cs ++ b) = runLen p (cs ++ b) + 1 := by simp [runLen, hc]
      rw [this, List.cons_append, List.drop_succ_cons]
      obtain ⟨x', h1, h2⟩ := ih
      exact ⟨x', h1.trans (List.suffix_cons _ _), h2⟩
    · have : runLen p (c :: cs ++ b) = 0 := by simp [runLen, hc]
      rw [this]
      exact ⟨c :: cs, List.suffix_rfl, rfl⟩

theorem suffix_last {t u : Str} {l : Char} (ht : t ≠ []) (hs : t <:+ u) (hl : u.getLast? = some l) :
    t.getLast? = some l := by
  obtain ⟨w, rfl⟩ := hs
  rw [List.getLast?_append] at hl
  cases h : t.getLast? with
  | none => exact absurd (List.getLast?_eq_none_iff.1 h) ht
  | some x => rw [h] at hl; exact hl

/-! ## Each rule between two texts -/

theorem mOpen_size (prev : Option Char) (s : Str) (k : Nat) (r : Str) (h : mOpen prev s = some (k, r)) :
    k ≠ 0 ∧ k ≤ s.length ∧ ∀ c, (s.take k).getLast? = some c → isSpace c = false → r.getLast? = some c := by
  unfold mOpen at h
  split at h
  · rename_i cs
    split at h
    · cases h
    · rename_i h0
      cases h
      have := runLen_le (p := isSpace) (s := cs)
      refine ⟨by omega, by simp; omega, fun c hc hsp => ?_⟩
      rw [Nat.add_comm, List.take_succ_cons, take_runLen] at hc
      have : c ∈ cs.takeWhile isSpace := by
        cases hw : cs.takeWhile isSpace with
        | nil => exact absurd (by simp [runLen, hw]) h0
        | cons d ds =>
          rw [hw, List.getLast?_cons_cons] at hc
          exact List.mem_of_getLast? hc
      rw [mem_takeWhile_holds this] at hsp
      cases hsp
  · cases h

theorem mClose_size (prev : Option Char) (s : Str) (k : Nat) (r : Str) (h : mClose prev s = some (k, r)) :
    k ≠ 0 ∧ k ≤ s.length ∧ ∀ c, (s.take k).getLast? = some c → isSpace c = false → r.getLast? = some c := by
  unfold mClose at h
  dsimp only at h
  split at h
  · cases h
  · split at h
    · rename_i h1
      cases h
      have hlt : runLen isSpace s < s.length := by
        have := runLen_le (p := isSpace) (s := s)
        rcases Nat.lt_or_eq_of_le this with h | h
        · exact h
        · rw [h, List.drop_length] at h1
          cases h1
      refine ⟨by omega, by omega, fun c hc _ => ?_⟩
      rw [List.take_add_one, List.getLast?_append] at hc
      rw [List.head?_drop] at h1
      rw [h1] at hc
      exact hc
    · cases h

theorem mHyphen_size (prev : Option Char) (s : Str) (k : Nat) (r : Str) (h : mHyphen isWord prev s = some (k, r)) :
    k ≠ 0 ∧ k ≤ s.length ∧ ∀ c, (s.take k).getLast? = some c → isSpace c = false → r.getLast? = some c := by
  unfold mHyphen at h
  dsimp only at h
  split at h
  · cases h
  · split at h
    · rename_i t ht
      split at h
      · cases h
      · rename_i h0
        split at h
        · cases h
          have h1 := runLen_le (p := isSpace) (s := t)
          have h2 : (s.drop (runLen isSpace s)).length = t.length + 1 := by rw [ht]; rfl
          rw [List.length_drop] at h2
          refine ⟨by omega, by omega, fun c hc hsp => ?_⟩
          rw [Nat.add_assoc, List.take_add, ht, Nat.add_comm 1, List.take_succ_cons, List.getLast?_append,
            take_runLen isSpace t] at hc
          have : c ∈ t.takeWhile isSpace := by
            cases hw : t.takeWhile isSpace with
            | nil => exact absurd (by simp [runLen, hw]) h0
            | cons d ds =>
              rw [hw, List.getLast?_cons_cons] at hc
              cases hl : (d :: ds).getLast? with
              | none => simp at hl
              | some x =>
                rw [hl] at hc
                cases hc
                exact List.mem_of_getLast? hl
          rw [mem_takeWhile_holds this] at hsp
          cases hsp
        · cases h
    · cases h

theorem mComma_size (prev : Option Char) (s : Str) (k : Nat) (r : Str) (h : mComma prev s = some (k, r)) :
    k ≠ 0 ∧ k ≤ s.length ∧ ∀ c, (s.take k).getLast? = some c →
      isSpace c = false ∧ isListSep c = false → r.getLast? = some c := by
  unfold mComma at h
  dsimp only at h
  split at h
  · cases h
  · split at h
    · cases h
      have h1 := runLen_le (p := isSpace) (s := s)
      have h2 := runLen_le (p := isListSep) (s := s.drop (runLen isSpace s))
      have h3 := runLen_le (p := isSpace) (s := (s.drop (runLen isSpace s)).drop (runLen isListSep (s.drop (runLen isSpace s))))
      simp only [List.length_drop] at h2 h3
      refine ⟨by omega, by omega, fun c hc hno => ?_⟩
      have hpart : ∀ c ∈ s.take (runLen isSpace s + runLen isListSep (s.drop (runLen isSpace s)) +
          runLen isSpace ((s.drop (runLen isSpace s)).drop (runLen isListSep (s.drop (runLen isSpace s))))),
          isSpace c = true ∨ isListSep c = true := by
        intro c hc
        rw [Nat.add_assoc, List.take_add, List.take_add, take_runLen, take_runLen, take_runLen] at hc
        simp only [List.mem_append] at hc
        rcases hc with hc | hc | hc
        · exact .inl (mem_takeWhile_holds hc)
        · exact .inr (mem_takeWhile_holds hc)
        · exact .inl (mem_takeWhile_holds hc)
      rcases hpart c (List.mem_of_getLast? hc) with h | h
      · rw [hno.1] at h; cases h
      · rw [hno.2] at h; cases h
    · cases h

theorem mUnderscore_size (prev : Option Char) (s : Str) (k : Nat) (r : Str) (h : mUnderscore prev s = some (k, r)) :
    k ≠ 0 ∧ k ≤ s.length ∧ ∀ c, (s.take k).getLast? = some c →
      isSpace c = false ∧ c ≠ '_' → r.getLast? = some c := by
  unfold mUnderscore at h
  dsimp only at h
  split at h
  · cases h
  · rename_i h0
    simp only [Bool.or_eq_true, decide_eq_true_eq, not_or] at h0
    cases h
    have h1 := runLen_le (p := isSpace) (s := s)
    have h2 := runLen_le (p := (· == '_')) (s := s.drop (runLen isSpace s))
    have h3 := runLen_le (p := isSpace) (s := (s.drop (runLen isSpace s)).drop (runLen (· == '_') (s.drop (runLen isSpace s))))
    simp only [List.length_drop] at h2 h3
    refine ⟨by omega, by omega, fun c hc hno => ?_⟩
    have hpart : ∀ c ∈ s.take (runLen isSpace s + runLen (· == '_') (s.drop (runLen isSpace s)) +
        runLen isSpace ((s.drop (runLen isSpace s)).drop (runLen (· == '_') (s.drop (runLen isSpace s))))),
        isSpace c = true ∨ c = '_' := by
      intro c hc
      rw [Nat.add_assoc, List.take_add, List.take_add, take_runLen, take_runLen, take_runLen] at hc
      simp only [List.mem_append] at hc
      rcases hc with hc | hc | hc
      · exact .inl (mem_takeWhile_holds hc)
      · exact .inr (by simpa using mem_takeWhile_holds hc)
      · exact .inl (mem_takeWhile_holds hc)
    rcases hpart c (List.mem_of_getLast? hc) with h | h
    · rw [hno.1] at h; cases h
    · exact absurd h hno.2

theorem mOpen_context {prev q : Option Char} {a x b : Str} {l : Char} (hl : a.getLast? = some l)
    (h1 : isSpace l = false) (h2 : l ≠ '(') (hx : '(' ∉ x) :
    subFrom mOpen prev (a ++ x ++ b) = subFrom mOpen prev a ++ x ++ subFrom mOpen q b := by
  rw [List.append_assoc, subFrom_split, subFrom_skip, List.append_assoc]
  · congr 2
    exact subFrom_prev rfl
  · intro p t ht hs
    cases t with
    | nil => exact absurd rfl ht
    | cons c t =>
      have : c ≠ '(' := fun e => hx (e ▸ hs.subset (by simp))
      simp [mOpen, this]
  · intro p t ht hs
    refine ⟨?_, fun k r h => ⟨(mOpen_size _ _ _ _ h).1, (mOpen_size _ _ _ _ h).2.1⟩⟩
    have hl := suffix_last ht hs hl
    cases t with
    | nil => exact absurd rfl ht
    | cons c t =>
      by_cases hc : c = '('
      · subst hc
        cases t with
        | nil => simp at hl; exact absurd hl.symm h2
        | cons d t =>
          have := (runLen_stop (p := isSpace) (t := d :: t) (z := x ++ b) (l := l) (by simpa using hl) h1).1
          simp only [mOpen, List.cons_append] at this ⊢
          rw [this]
      · simp [mOpen, hc]

theorem mClose_context {prev q : Option Char} {a x b : Str} {l h : Char} (hl : a.getLast? = some l)
    (h1 : isSpace l = false) (hx : ')' ∉ x) (hh : b.head? = some h) (h3 : isSpace h = false) (h4 : h ≠ ')') :
    subFrom mClose prev (a ++ x ++ b) = subFrom mClose prev a ++ x ++ subFrom mClose q b := by
  rw [List.append_assoc, subFrom_split, subFrom_skip, List.append_assoc]
  · congr 2
    exact subFrom_prev rfl
  · intro p t ht hs
    unfold mClose
    dsimp only
    split
    · rfl
    · rw [if_neg]
      intro hd
      rcases run_first hh h3 hd with h | h
      · exact hx (hs.subset h)
      · exact h4 h.symm
  · intro p t ht hs
    refine ⟨?_, fun k r h => ⟨(mClose_size _ _ _ _ h).1, (mClose_size _ _ _ _ h).2.1⟩⟩
    have hl := suffix_last ht hs hl
    obtain ⟨h5, h6⟩ := runLen_stop (p := isSpace) (t := t) (z := x ++ b) hl h1
    unfold mClose
    dsimp only
    rw [h5, head_drop_append h6]

/-- The hyphen rule sees the same in a text, whatever follows it. -/
theorem mHyphen_stop {prev : Option Char} {t z : Str} {l : Char} (ht : t ≠ []) (hl : t.getLast? = some l)
    (h1 : isSpace l = false) (h2 : l ≠ '-') : mHyphen isWord prev (t ++ z) = mHyphen isWord prev t := by
  obtain ⟨h5, h6⟩ := runLen_stop (p := isSpace) (t := t) (z := z) hl h1
  have hhd : (t ++ z).head? = t.head? := by
    cases t with
    | nil => exact absurd rfl ht
    | cons c t => rfl
  unfold mHyphen
  dsimp only
  rw [h5, hhd, List.drop_append_of_le_length (by omega)]
  have hl' := last_drop h6
  rw [hl] at hl'
  cases hd : t.drop (runLen isSpace t) with
  | nil => rw [hd] at hl'; cases hl'
  | cons c u =>
    rw [hd] at hl'
    by_cases hc : c = '-'
    · subst hc
      cases u with
      | nil => simp at hl'; exact absurd hl'.symm h2
      | cons d u =>
        obtain ⟨h7, h8⟩ := runLen_stop (p := isSpace) (t := d :: u) (z := z) (l := l) (by simpa using hl') h1
        simp only [List.cons_append] at h7 ⊢
        rw [h7]
        have e1 := head_drop_append (z := z) h8
        have e2 : (d :: (u ++ z))[runLen isSpace (d :: u) - 1]? = (d :: u)[runLen isSpace (d :: u) - 1]? := by
          rw [← List.cons_append]
          exact List.getElem?_append_left (by omega)
        rw [List.cons_append] at e1
        rw [e1, e2]
    · simp [hc]

theorem mHyphen_start {p q : Option Char} {b : Str} {h : Char} (hh : b.head? = some h) (h3 : isSpace h = false) :
    subFrom (mHyphen isWord) p b = subFrom (mHyphen isWord) q b := by
  have key : ∀ p, mHyphen isWord p b = none := by
    intro p
    unfold mHyphen
    cases b with
    | nil => cases hh
    | cons c b =>
      cases hh
      simp [runLen, h3]
  exact subFrom_prev (by rw [key, key])

theorem mHyphen_split {prev : Option Char} {a z : Str} {l : Char} (hl : a.getLast? = some l)
    (h1 : isSpace l = false) (h2 : l ≠ '-') :
    subFrom (mHyphen isWord) prev (a ++ z) =
      subFrom (mHyphen isWord) prev a ++ subFrom (mHyphen isWord) (some l) z := by
  rw [subFrom_split]
  · simp [lastOr, hl]
  · intro p t ht hs
    refine ⟨?_, fun k r h => ⟨(mHyphen_size _ _ _ _ h).1, (mHyphen_size _ _ _ _ h).2.1⟩⟩
    exact mHyphen_stop ht (suffix_last ht hs hl) h1 h2

theorem mHyphen_context {prev q : Option Char} {a x b : Str} {l h : Char} (hl : a.getLast? = some l)
    (h1 : isSpace l = false) (h2 : l ≠ '-') (hx : '-' ∉ x) (hh : b.head? = some h) (h3 : isSpace h = false)
    (h4 : h ≠ '-') :
    subFrom (mHyphen isWord) prev (a ++ x ++ b) =
      subFrom (mHyphen isWord) prev a ++ x ++ subFrom (mHyphen isWord) q b := by
  rw [List.append_assoc, mHyphen_split hl h1 h2, subFrom_skip, List.append_assoc, mHyphen_start hh h3]
  intro p t ht hs
  unfold mHyphen
  dsimp only
  split
  · rfl
  · split
    · rename_i u hd
      rcases run_first (d := '-') hh h3 (by rw [hd]; rfl) with h | h
      · exact absurd (hs.subset h) hx
      · exact absurd h.symm h4
    · rfl

theorem mComma_split {prev q : Option Char} {a z : Str} {l : Char} (hl : a.getLast? = some l)
    (h1 : isSpace l = false) (h2 : isListSep l = false) :
    subFrom mComma prev (a ++ z) = subFrom mComma prev a ++ subFrom mComma q z := by
  rw [subFrom_split]
  · congr 1
    exact subFrom_prev rfl
  · intro p t ht hs
    refine ⟨?_, fun k r h => ⟨(mComma_size _ _ _ _ h).1, (mComma_size _ _ _ _ h).2.1⟩⟩
    have hl := suffix_last ht hs hl
    obtain ⟨h5, h6⟩ := runLen_stop (p := isSpace) (t := t) (z := z) hl h1
    have hl' := (last_drop h6).trans hl
    obtain ⟨h7, h8⟩ := runLen_stop (p := isListSep) (z := z) hl' h2
    have hl'' := (last_drop h8).trans hl'
    obtain ⟨h9, h10⟩ := runLen_stop (p := isSpace) (z := z) hl'' h1
    unfold mComma
    dsimp only
    rw [h5, List.drop_append_of_le_length (by omega), h7, List.drop_append_of_le_length (by omega), h9,
      head_drop_append h10]

/-- The comma rule finds nothing before a character that is no separator. -/
theorem mComma_context {prev q : Option Char} {a x b : Str} {l h : Char} (hl : a.getLast? = some l)
    (h1 : isSpace l = false) (h2 : isListSep l = false) (hx : ∀ c ∈ x, isListSep c = false)
    (hh : b.head? = some h) (h3 : isSpace h = false) (h4 : isListSep h = false) :
    subFrom mComma prev (a ++ x ++ b) = subFrom mComma prev a ++ x ++ subFrom mComma q b := by
  rw [List.append_assoc, mComma_split (q := none) hl h1 h2, subFrom_skip, List.append_assoc]
  · congr 2
    exact subFrom_prev rfl
  · intro p t ht hs
    unfold mComma
    dsimp only
    rw [if_pos]
    cases hd : (t ++ b).drop (runLen isSpace (t ++ b)) with
    | nil => rfl
    | cons d u =>
      have : isListSep d = false := by
        rcases run_first (d := d) hh h3 (by rw [hd]; rfl) with h | h
        · exact hx d (hs.subset h)
        · rw [h]; exact h4
      simp [runLen, this]

/-- Separators with white space around them become a comma and a space. -/
theorem mComma_applies {prev q : Option Char} {sp seps sp' b : Str} {h : Char} (hsp : ∀ c ∈ sp, isSpace c = true)
    (hne : seps ≠ []) (hsep : ∀ c ∈ seps, isListSep c = true) (hsp' : ∀ c ∈ sp', isSpace c = true)
    (hh : b.head? = some h) (h3 : isSpace h = false) (h4 : isListSep h = false) (h5 : isPhraseStart h = true) :
    subFrom mComma prev (sp ++ seps ++ sp' ++ b) = c!", " ++ subFrom mComma q b := by
  have nosp : ∀ c, isListSep c = true → isSpace c = false := by
    intro c hc
    simp only [isListSep, Bool.or_eq_true, beq_iff_eq] at hc
    rcases hc with (rfl | rfl) | rfl <;> decide
  have nosep : ∀ c, isSpace c = true → isListSep c = false := by
    intro c hc
    cases h : isListSep c with
    | false => rfl
    | true => rw [nosp c h] at hc; cases hc
  obtain ⟨s0, seps', rfl⟩ : ∃ s0 seps', seps = s0 :: seps' := by
    cases seps with
    | nil => exact absurd rfl hne
    | cons a b => exact ⟨a, b, rfl⟩
  have r1 : runLen isSpace (sp ++ (s0 :: seps' ++ sp' ++ b)) = sp.length :=
    runLen_append hsp fun c hc => by cases hc; exact nosp _ (hsep _ (by simp))
  have r2 : runLen isListSep (s0 :: seps' ++ (sp' ++ b)) = (s0 :: seps').length :=
    runLen_append hsep fun c hc => by
      cases sp' with
      | nil => rw [List.nil_append, hh] at hc; cases hc; exact h4
      | cons d sp' => cases hc; exact nosep _ (hsp' _ (by simp))
  have r3 : runLen isSpace (sp' ++ b) = sp'.length :=
    runLen_append hsp' fun c hc => by rw [hh] at hc; cases hc; exact h3
  have hm : mComma prev (sp ++ (s0 :: seps') ++ sp' ++ b) =
      some (sp.length + (s0 :: seps').length + sp'.length, c!", ") := by
    unfold mComma
    dsimp only
    simp only [List.append_assoc] at r1 ⊢
    rw [r1, List.drop_left]
    rw [r2, List.drop_left, r3, List.drop_left, hh]
    simp [h5]
  have hlen : sp.length + (s0 :: seps').length + sp'.length =
      (sp.length + seps'.length + sp'.length) + 1 := by simp; omega
  rw [hlen] at hm
  rw [subFrom_match (by simp) hm, ← hlen]
  have hd : (sp ++ (s0 :: seps') ++ sp' ++ b).drop (sp.length + (s0 :: seps').length + sp'.length) = b := by
    rw [← List.length_append, ← List.length_append, List.drop_left]
  rw [hd]
  congr 1
  exact subFrom_prev rfl

theorem mUnderscore_split {prev q : Option Char} {a z : Str} {l : Char} (hl : a.getLast? = some l)
    (h1 : isSpace l = false) (h2 : l ≠ '_') :
    subFrom mUnderscore prev (a ++ z) = subFrom mUnderscore prev a ++ subFrom mUnderscore q z := by
  rw [subFrom_split]
  · congr 1
    exact subFrom_prev rfl
  · intro p t ht hs
    refine ⟨?_, fun k r h => ⟨(mUnderscore_size _ _ _ _ h).1, (mUnderscore_size _ _ _ _ h).2.1⟩⟩
    have hl := suffix_last ht hs hl
    obtain ⟨h5, h6⟩ := runLen_stop (p := isSpace) (t := t) (z := z) hl h1
    have hl' := (last_drop h6).trans hl
    obtain ⟨h7, h8⟩ := runLen_stop (p := (· == '_')) (z := z) hl' (by simp [h2])
    have hl'' := (last_drop h8).trans hl'
    obtain ⟨h9, h10⟩ := runLen_stop (p := isSpace) (z := z) hl'' h1
    unfold mUnderscore
    dsimp only
    rw [h5, List.drop_append_of_le_length (by omega), h7, List.drop_append_of_le_length (by omega), h9]

theorem mUnderscore_context {prev q : Option Char} {a x b : Str} {l h : Char} (hl : a.getLast? = some l)
    (h1 : isSpace l = false) (h2 : l ≠ '_') (hx : '_' ∉ x)
    (hh : b.head? = some h) (h3 : isSpace h = false) (h4 : h ≠ '_') :
    subFrom mUnderscore prev (a ++ x ++ b) = subFrom mUnderscore prev a ++ x ++ subFrom mUnderscore q b := by
  rw [List.append_assoc, mUnderscore_split (q := none) hl h1 h2, subFrom_skip, List.append_assoc]
  · congr 2
    exact subFrom_prev rfl
  · intro p t ht hs
    unfold mUnderscore
    dsimp only
    rw [if_pos]
    cases hd : (t ++ b).drop (runLen isSpace (t ++ b)) with
    | nil => simp [runLen]
    | cons d u =>
      have : d ≠ '_' := by
        rcases run_first (d := d) hh h3 (by rw [hd]; rfl) with h | h
        · exact fun e => hx (e ▸ hs.subset h)
        · rw [h]; exact h4
      simp [runLen, this]

theorem mUnderscore_applies {prev q : Option Char} {sp us sp' b : Str} {h : Char} (hsp : ∀ c ∈ sp, isSpace c = true)
    (hne : sp ≠ []) (hus : ∀ c ∈ us, c = '_') (hne' : us ≠ []) (hsp' : ∀ c ∈ sp', isSpace c = true) (hne'' : sp' ≠ [])
    (hh : b.head? = some h) (h3 : isSpace h = false) :
    subFrom mUnderscore prev (sp ++ us ++ sp' ++ b) = c!" " ++ subFrom mUnderscore q b := by
  have hund : isSpace '_' = false := by decide
  obtain ⟨u0, us', rfl⟩ : ∃ s0 seps', us = s0 :: seps' := by
    cases us with
    | nil => exact absurd rfl hne'
    | cons a b => exact ⟨a, b, rfl⟩
  have r1 : runLen isSpace (sp ++ (u0 :: us' ++ sp' ++ b)) = sp.length :=
    runLen_append hsp fun c hc => by cases hc; rw [hus u0 (by simp)]; exact hund
  have r2 : runLen (· == '_') (u0 :: us' ++ (sp' ++ b)) = (u0 :: us').length :=
    runLen_append (fun c hc => by simpa using hus c hc) fun c hc => by
      cases sp' with
      | nil => exact absurd rfl hne''
      | cons d sp' =>
        cases hc
        have := hsp' c (by simp)
        by_cases e : c = '_'
        · rw [e, hund] at this; cases this
        · simp [e]
  have r3 : runLen isSpace (sp' ++ b) = sp'.length :=
    runLen_append hsp' fun c hc => by rw [hh] at hc; cases hc; exact h3
  have hm : mUnderscore prev (sp ++ (u0 :: us') ++ sp' ++ b) =
      some (sp.length + (u0 :: us').length + sp'.length, c!" ") := by
    unfold mUnderscore
    dsimp only
    simp only [List.append_assoc] at r1 ⊢
    rw [r1, List.drop_left]
    rw [r2, List.drop_left, r3, if_neg]
    simp only [Bool.or_eq_true, decide_eq_true_eq, List.length_eq_zero_iff, hne, hne'', false_or, or_false]
    simp
  have hlen : sp.length + (u0 :: us').length + sp'.length =
      (sp.length + us'.length + sp'.length) + 1 := by simp; omega
  rw [hlen] at hm
  rw [subFrom_match (by simp) hm, ← hlen]
  have hd : (sp ++ (u0 :: us') ++ sp' ++ b).drop (sp.length + (u0 :: us').length + sp'.length) = b := by
    rw [← List.length_append, ← List.length_append, List.drop_left]
  rw [hd]
  congr 1
  exact subFrom_prev rfl

theorem mEmpty_size (prev : Option Char) (s : Str) (k : Nat) (r : Str) (h : mEmpty isWord prev s = some (k, r)) :
    k ≠ 0 ∧ k ≤ s.length := by
  unfold mEmpty at h
  split at h
  · rename_i t
    split at h
    · cases h
    · dsimp only at h
      split at h
      · rename_i u hu
        split at h
        · cases h
          have h1 := runLen_le (p := isSpace) (s := u)
          have h2 : (t.drop (runLen isSpace t)).length = u.length + 1 := by rw [hu]; rfl
          rw [List.length_drop] at h2
          simp only [List.length_cons]
          omega
        · cases h
      · cases h
  · cases h

theorem mEmpty_split {prev : Option Char} {a z : Str} {l : Char} (hl : a.getLast? = some l)
    (h1 : isSpace l = false) (h2 : l ≠ ',') :
    subFrom (mEmpty isWord) prev (a ++ z) = subFrom (mEmpty isWord) prev a ++ subFrom (mEmpty isWord) (some l) z := by
  rw [subFrom_split]
  · simp [lastOr, hl]
  · intro p t ht hs
    refine ⟨?_, fun k r h => mEmpty_size _ _ _ _ h⟩
    have hl := suffix_last ht hs hl
    cases t with
    | nil => exact absurd rfl ht
    | cons c t =>
      by_cases hc : c = ','
      · subst hc
        cases t with
        | nil => simp at hl; exact absurd hl.symm h2
        | cons d t =>
          have hl : (d :: t).getLast? = some l := by simpa using hl
          obtain ⟨h5, h6⟩ := runLen_stop (p := isSpace) (z := z) hl h1
          have hl' := (last_drop h6).trans hl
          simp only [mEmpty, List.cons_append] at h5 ⊢
          rw [h5, ← List.cons_append, List.drop_append_of_le_length (by omega)]
          cases hd : (d :: t).drop (runLen isSpace (d :: t)) with
          | nil => rw [hd] at hl'; cases hl'
          | cons e u =>
            rw [hd] at hl'
            by_cases he : e = ','
            · subst he
              cases u with
              | nil => simp at hl'; exact absurd hl'.symm h2
              | cons f u =>
                have hl' : (f :: u).getLast? = some l := by simpa using hl'
                obtain ⟨h7, h8⟩ := runLen_stop (p := isSpace) (z := z) hl' h1
                have := head_drop_append (z := z) h8
                simp only [List.cons_append] at h7 this ⊢
                rw [h7, this]
            · simp [he]
      · simp [mEmpty, hc]

theorem mEmpty_start {p q : Option Char} {b : Str} {h : Char} (hh : b.head? = some h) (h4 : h ≠ ',') :
    subFrom (mEmpty isWord) p b = subFrom (mEmpty isWord) q b := by
  have key : ∀ p, mEmpty isWord p b = none := by
    intro p
    cases b with
    | nil => cases hh
    | cons c b =>
      cases hh
      simp [mEmpty, h4]
  exact subFrom_prev (by rw [key, key])

theorem mOpen_head {p : Option Char} {b : Str} : (subFrom mOpen p b).head? = b.head? := by
  cases b with
  | nil => rfl
  | cons c b =>
    cases hm : mOpen p (c :: b) with
    | none => rw [subFrom_none hm]; rfl
    | some x =>
      obtain ⟨k, r⟩ := x
      obtain ⟨h1, -⟩ := mOpen_size _ _ _ _ hm
      obtain ⟨k, rfl⟩ : ∃ j, k = j + 1 := ⟨k - 1, by omega⟩
      rw [subFrom_match (by simp) hm]
      unfold mOpen at hm
      split at hm
      · rename_i heq
        cases heq
        split at hm
        · cases hm
        · simp only [Option.some.injEq, Prod.mk.injEq] at hm
          rw [← hm.2]
          rfl
      · cases hm

theorem mClose_head {p : Option Char} {b : Str} {h : Char} (hh : b.head? = some h) (h3 : isSpace h = false) :
    (subFrom mClose p b).head? = some h := by
  cases b with
  | nil => cases hh
  | cons c b => cases hh; rw [subFrom_none (by simp [mClose, runLen, h3])]; rfl

theorem mHyphen_head {p : Option Char} {b : Str} {h : Char} (hh : b.head? = some h) (h3 : isSpace h = false) :
    (subFrom (mHyphen isWord) p b).head? = some h := by
  cases b with
  | nil => cases hh
  | cons c b => cases hh; rw [subFrom_none (by simp [mHyphen, runLen, h3])]; rfl

theorem mComma_head {p : Option Char} {b : Str} {h : Char} (hh : b.head? = some h) (h3 : isSpace h = false)
    (h4 : isListSep h = false) : (subFrom mComma p b).head? = some h := by
  cases b with
  | nil => cases hh
  | cons c b => cases hh; rw [subFrom_none (by simp [mComma, runLen, h3, h4])]; rfl

theorem mUnderscore_head {p : Option Char} {b : Str} {h : Char} (hh : b.head? = some h) (h3 : isSpace h = false) :
    (subFrom mUnderscore p b).head? = some h := by
  cases b with
  | nil => cases hh
  | cons c b => cases hh; rw [subFrom_none (by simp [mUnderscore, runLen, h3])]; rfl

/-! ## The rules one after the other -/

/-- The rules for parentheses. -/
def unparen (s : Str) : Str := subFrom mClose none (subFrom mOpen none s)

theorem tidied_unparen (s : Str) : tidied isWord s =
    subFrom (mEmpty isWord) none (subFrom mUnderscore none (subFrom mComma none
      (subFrom (mHyphen isWord) none (unparen s)))) := rfl

theorem unparen_context {a x b : Str} {l h : Char} (hl : a.getLast? = some l)
    (h1 : isSpace l = false) (h2 : l ≠ '(') (hx : '(' ∉ x) (hx' : ')' ∉ x) (hh : b.head? = some h)
    (h3 : isSpace h = false) (h4 : h ≠ ')') : unparen (a ++ x ++ b) = unparen a ++ x ++ unparen b := by
  unfold unparen
  rw [mOpen_context (q := none) hl h1 h2 hx, mClose_context (q := none) (l := l) (h := h)]
  · exact subFrom_last _ mOpen_size hl h1
  · exact h1
  · exact hx'
  · rw [mOpen_head, hh]
  · exact h3
  · exact h4

theorem unparen_last {a : Str} {l : Char} (hl : a.getLast? = some l) (h1 : isSpace l = false) :
    (unparen a).getLast? = some l :=
  subFrom_last _ mClose_size (subFrom_last _ mOpen_size hl h1) h1

theorem unparen_head {b : Str} {h : Char} (hh : b.head? = some h) (h3 : isSpace h = false) :
    (unparen b).head? = some h := mClose_head (by rw [mOpen_head, hh]) h3

/-- The rules for parentheses and hyphens. -/
def dehyphen (isWord : Char → Bool) (s : Str) : Str := subFrom (mHyphen isWord) none (unparen s)

theorem dehyphen_context {a x b : Str} {l h : Char} (hl : a.getLast? = some l)
    (h1 : isSpace l = false) (h2 : l ≠ '(') (h2' : l ≠ '-') (hx : '(' ∉ x) (hx' : ')' ∉ x) (hx'' : '-' ∉ x)
    (hh : b.head? = some h) (h3 : isSpace h = false) (h4 : h ≠ ')') (h4' : h ≠ '-') :
    dehyphen isWord (a ++ x ++ b) = dehyphen isWord a ++ x ++ dehyphen isWord b := by
  unfold dehyphen
  rw [unparen_context hl h1 h2 hx hx' hh h3 h4,
    mHyphen_context (q := none) (unparen_last hl h1) h1 h2' hx'' (unparen_head hh h3) h3 h4']

theorem dehyphen_last {a : Str} {l : Char} (hl : a.getLast? = some l) (h1 : isSpace l = false) :
    (dehyphen isWord a).getLast? = some l := subFrom_last _ mHyphen_size (unparen_last hl h1) h1

theorem dehyphen_head {b : Str} {h : Char} (hh : b.head? = some h) (h3 : isSpace h = false) :
    (dehyphen isWord b).head? = some h := mHyphen_head (unparen_head hh h3) h3

theorem sep_not_special {c : Char} (h : isListSep c = true) : c ≠ '(' ∧ c ≠ ')' ∧ c ≠ '-' ∧ c ≠ '_' := by
  simp only [isListSep, Bool.or_eq_true, beq_iff_eq] at h
  rcases h with (rfl | rfl) | rfl <;> decide

theorem space_not_special {c : Char} (h : isSpace c = true) :
    c ≠ '(' ∧ c ≠ ')' ∧ c ≠ '-' ∧ c ≠ '_' ∧ c ≠ ',' ∧ isListSep c = false := by
  refine ⟨?_, ?_, ?_, ?_, ?_, ?_⟩
  · rintro rfl; exact absurd h (by decide)
  · rintro rfl; exact absurd h (by decide)
  · rintro rfl; exact absurd h (by decide)
  · rintro rfl; exact absurd h (by decide)
  · rintro rfl; exact absurd h (by decide)
  · cases hs : isListSep c with
    | false => rfl
    | true =>
      simp only [isListSep, Bool.or_eq_true, beq_iff_eq] at hs
      rcases hs with (rfl | rfl) | rfl <;> exact absurd h (by decide)

/-- Separators count as a comma and a space. -/
theorem tidied_separators {a sp seps sp' b : Str} {l h : Char} (hl : a.getLast? = some l)
    (h1 : isSpace l = false) (h2 : l ≠ '(') (h2' : l ≠ '-') (h2'' : isListSep l = false)
    (hsp : ∀ c ∈ sp, isSpace c = true)
    (hne : seps ≠ []) (hsep : ∀ c ∈ seps, isListSep c = true) (hsp' : ∀ c ∈ sp', isSpace c = true)
    (hh : b.head? = some h) (h3 : isSpace h = false) (h4 : h ≠ ')') (h4' : h ≠ '-') (h4'' : isListSep h = false)
    (h5 : isPhraseStart h = true) :
    tidied isWord (a ++ (sp ++ seps ++ sp') ++ b) = tidied isWord (a ++ c!", " ++ b) := by
  have key : ∀ sp seps sp' : Str, (∀ c ∈ sp, isSpace c = true) → seps ≠ [] → (∀ c ∈ seps, isListSep c = true) →
      (∀ c ∈ sp', isSpace c = true) →
      subFrom mComma none (dehyphen isWord (a ++ (sp ++ seps ++ sp') ++ b)) =
        subFrom mComma none (dehyphen isWord a) ++ c!", " ++ subFrom mComma none (dehyphen isWord b) := by
    intro sp seps sp' hsp hne hsep hsp'
    have hx : ∀ c ∈ sp ++ seps ++ sp', c ≠ '(' ∧ c ≠ ')' ∧ c ≠ '-' := by
      intro c hc
      simp only [List.mem_append] at hc
      rcases hc with (hc | hc) | hc
      · have := space_not_special (hsp c hc); exact ⟨this.1, this.2.1, this.2.2.1⟩
      · have := sep_not_special (hsep c hc); exact ⟨this.1, this.2.1, this.2.2.1⟩
      · have := space_not_special (hsp' c hc); exact ⟨this.1, this.2.1, this.2.2.1⟩
    rw [dehyphen_context hl h1 h2 h2' (fun h => (hx _ h).1 rfl) (fun h => (hx _ h).2.1 rfl)
        (fun h => (hx _ h).2.2 rfl) hh h3 h4 h4', List.append_assoc,
      mComma_split (q := none) (dehyphen_last hl h1) h1 h2'',
      mComma_applies (q := none) hsp hne hsep hsp' (dehyphen_head hh h3) h3 h4'' h5, List.append_assoc]
  have e1 := key sp seps sp' hsp hne hsep hsp'
  have e2 := key [] c!"," c!" " (by simp) (by simp) (by decide) (by decide)
  rw [tidied_unparen, tidied_unparen]
  unfold dehyphen at e1 e2
  rw [e1]
  rw [show a ++ c!", " ++ b = a ++ ([] ++ c!"," ++ c!" ") ++ b by simp, e2]

/-- White space around a hyphen between words goes. -/
theorem tidied_hyphen {a sp sp' b : Str} {l h : Char} (hspw : ∀ c, isSpace c = true → isWord c = false)
    (hl : a.getLast? = some l) (hlw : isWord l = true) (h2 : l ≠ '(') (h2' : l ≠ '-')
    (hsp : ∀ c ∈ sp, isSpace c = true) (hne : sp ≠ []) (hsp' : ∀ c ∈ sp', isSpace c = true) (hne' : sp' ≠ [])
    (hh : b.head? = some h) (hhw : isWord h = true) (h4 : h ≠ ')') :
    tidied isWord (a ++ (sp ++ c!"-" ++ sp') ++ b) = tidied isWord (a ++ c!"-" ++ b) := by
  have nosp : ∀ c, isWord c = true → isSpace c = false := by
    intro c hc
    cases h : isSpace c with
    | false => rfl
    | true => rw [hspw c h] at hc; cases hc
  have h1 := nosp l hlw
  have h3 := nosp h hhw
  have e1 : dehyphen isWord (a ++ (sp ++ c!"-" ++ sp') ++ b) = dehyphen isWord a ++ c!"-" ++ dehyphen isWord b := by
    unfold dehyphen
    have hx : ∀ c ∈ sp ++ c!"-" ++ sp', c ≠ '(' ∧ c ≠ ')' := by
      intro c hc
      simp only [List.mem_append] at hc
      rcases hc with (hc | hc) | hc
      · have := space_not_special (hsp c hc); exact ⟨this.1, this.2.1⟩
      · rw [List.mem_singleton] at hc; subst hc; decide
      · have := space_not_special (hsp' c hc); exact ⟨this.1, this.2.1⟩
    rw [unparen_context hl h1 h2 (fun h => (hx _ h).1 rfl) (fun h => (hx _ h).2 rfl) hh h3 h4, List.append_assoc,
      mHyphen_split (unparen_last hl h1) h1 h2']
    refine Eq.trans ?_ (List.append_assoc _ _ _).symm
    congr 1
    have hb := unparen_head hh h3
    generalize unparen b = b at hb
    obtain ⟨s0, sp, rfl⟩ : ∃ s0 t, sp = s0 :: t := by
      cases sp with
      | nil => exact absurd rfl hne
      | cons a b => exact ⟨a, b, rfl⟩
    have r1 : runLen isSpace ((s0 :: sp) ++ ('-' :: (sp' ++ b))) = (s0 :: sp).length :=
      runLen_append hsp fun c hc => by cases hc; decide
    have r2 : runLen isSpace (sp' ++ b) = sp'.length :=
      runLen_append hsp' fun c hc => by rw [hb] at hc; cases hc; exact h3
    have hpos : 0 < sp'.length := List.length_pos_iff.2 hne'
    have hlast : (sp' ++ b)[sp'.length - 1]?.any isWord = false := by
      rw [List.getElem?_append_left (by omega), List.getElem?_eq_getElem (by omega)]
      exact hspw _ (hsp' _ (List.getElem_mem _))
    have hm : mHyphen isWord (some l) ((s0 :: sp) ++ c!"-" ++ sp' ++ b) =
        some ((s0 :: sp).length + 1 + sp'.length, c!"-") := by
      have e : (s0 :: sp) ++ c!"-" ++ sp' ++ b = (s0 :: sp) ++ ('-' :: (sp' ++ b)) := by simp
      rw [e]
      unfold mHyphen
      dsimp only
      rw [r1, if_neg, List.drop_left]
      · simp only [r2]
        rw [if_neg (by omega), List.drop_left, hb, if_pos]
        unfold boundary
        rw [hlast]
        simp [hhw]
      · have := hspw s0 (hsp s0 (by simp))
        simp [boundary, hlw, this]
    have hlen : (s0 :: sp).length + 1 + sp'.length = ((s0 :: sp).length + sp'.length) + 1 := by omega
    rw [hlen] at hm
    rw [subFrom_match (by simp) hm]
    have hd : ((s0 :: sp) ++ c!"-" ++ sp' ++ b).drop ((s0 :: sp).length + sp'.length + 1) = b := by
      have : (s0 :: sp).length + sp'.length + 1 = ((s0 :: sp) ++ c!"-" ++ sp').length := by simp; omega
      rw [this, List.drop_left]
    rw [hd, mHyphen_start hb h3]
  have e2 : dehyphen isWord (a ++ c!"-" ++ b) = dehyphen isWord a ++ c!"-" ++ dehyphen isWord b := by
    unfold dehyphen
    rw [unparen_context hl h1 h2 (by simp) (by simp) hh h3 h4, List.append_assoc,
      mHyphen_split (unparen_last hl h1) h1 h2']
    refine Eq.trans ?_ (List.append_assoc _ _ _).symm
    congr 1
    have : mHyphen isWord (some l) ('-' :: unparen b) = none := by
      have : isSpace '-' = false := by decide
      simp [mHyphen, runLen, this]
    rw [show c!"-" ++ unparen b = '-' :: unparen b from rfl, subFrom_none this, mHyphen_start (unparen_head hh h3) h3]
    rfl
  rw [tidied_unparen, tidied_unparen]
  unfold dehyphen at e1 e2
  rw [e1, e2]

/-- The rules before the one for underscores. -/
def decomma (isWord : Char → Bool) (s : Str) : Str := subFrom mComma none (dehyphen isWord s)

theorem decomma_last {a : Str} {l : Char} (hl : a.getLast? = some l) (h1 : isSpace l = false)
    (h2 : isListSep l = false) : (decomma isWord a).getLast? = some l :=
  subFrom_last _ mComma_size (dehyphen_last hl h1) ⟨h1, h2⟩

theorem decomma_head {b : Str} {h : Char} (hh : b.head? = some h) (h3 : isSpace h = false)
    (h4 : isListSep h = false) : (decomma isWord b).head? = some h := mComma_head (dehyphen_head hh h3) h3 h4

theorem decomma_context {a x b : Str} {l h : Char} (hl : a.getLast? = some l)
    (h1 : isSpace l = false) (h2 : l ≠ '(') (h2' : l ≠ '-') (h2'' : isListSep l = false)
    (hx : ∀ c ∈ x, c ≠ '(' ∧ c ≠ ')' ∧ c ≠ '-' ∧ isListSep c = false)
    (hh : b.head? = some h) (h3 : isSpace h = false) (h4 : h ≠ ')') (h4' : h ≠ '-') (h4'' : isListSep h = false) :
    decomma isWord (a ++ x ++ b) = decomma isWord a ++ x ++ decomma isWord b := by
  unfold decomma
  rw [dehyphen_context hl h1 h2 h2' (fun h => (hx _ h).1 rfl) (fun h => (hx _ h).2.1 rfl)
      (fun h => (hx _ h).2.2.1 rfl) hh h3 h4 h4',
    mComma_context (q := none) (dehyphen_last hl h1) h1 h2'' (fun c hc => (hx c hc).2.2.2) (dehyphen_head hh h3) h3 h4'']

/-- Underscores between white space count as a space. -/
theorem tidied_underscores {a sp us sp' b : Str} {l h : Char} (hl : a.getLast? = some l)
    (h1 : isSpace l = false) (h2 : l ≠ '(') (h2' : l ≠ '-') (h2'' : isListSep l = false) (h2u : l ≠ '_')
    (hsp : ∀ c ∈ sp, isSpace c = true) (hne : sp ≠ []) (hus : ∀ c ∈ us, c = '_') (hneu : us ≠ [])
    (hsp' : ∀ c ∈ sp', isSpace c = true) (hne' : sp' ≠ [])
    (hh : b.head? = some h) (h3 : isSpace h = false) (h4 : h ≠ ')') (h4' : h ≠ '-') (h4'' : isListSep h = false)
    (h4u : h ≠ '_') :
    tidied isWord (a ++ (sp ++ us ++ sp') ++ b) = tidied isWord (a ++ c!" " ++ b) := by
  have e1 : subFrom mUnderscore none (decomma isWord (a ++ (sp ++ us ++ sp') ++ b)) =
      subFrom mUnderscore none (decomma isWord a) ++ c!" " ++ subFrom mUnderscore none (decomma isWord b) := by
    rw [decomma_context hl h1 h2 h2' h2'' ?_ hh h3 h4 h4' h4'', List.append_assoc,
      mUnderscore_split (q := none) (decomma_last hl h1 h2'') h1 h2u,
      mUnderscore_applies (q := none) hsp hne hus hneu hsp' hne' (decomma_head hh h3 h4'') h3, List.append_assoc]
    intro c hc
    simp only [List.mem_append] at hc
    rcases hc with (hc | hc) | hc
    · have := space_not_special (hsp c hc); exact ⟨this.1, this.2.1, this.2.2.1, this.2.2.2.2.2⟩
    · rw [hus c hc]; decide
    · have := space_not_special (hsp' c hc); exact ⟨this.1, this.2.1, this.2.2.1, this.2.2.2.2.2⟩
  have e2 : subFrom mUnderscore none (decomma isWord (a ++ c!" " ++ b)) =
      subFrom mUnderscore none (decomma isWord a) ++ c!" " ++ subFrom mUnderscore none (decomma isWord b) := by
    rw [decomma_context hl h1 h2 h2' h2'' (by decide) hh h3 h4 h4' h4'',
      mUnderscore_context (q := none) (decomma_last hl h1 h2'') h1 h2u (by decide) (decomma_head hh h3 h4'') h3 h4u]
  rw [tidied_unparen, tidied_unparen]
  unfold decomma dehyphen at e1 e2
  rw [e1, e2]

/-- An empty phrase between two commas goes. -/
theorem tidied_empty {a sp sp' b : Str} {l h : Char} (hspw : ∀ c, isSpace c = true → isWord c = false)
    (hcw : isWord ',' = false) (hl : a.getLast? = some l) (hlw : isWord l = true) (h2 : l ≠ '(') (h2' : l ≠ '-')
    (h2'' : isListSep l = false) (h2u : l ≠ '_')
    (hsp : ∀ c ∈ sp, isSpace c = true) (hsp' : ∀ c ∈ sp', isSpace c = true)
    (hh : b.head? = some h) (hhw : isWord h = true) (h4 : h ≠ ')') (h4' : h ≠ '-') (h4'' : isListSep h = false)
    (h4u : h ≠ '_') :
    tidied isWord (a ++ (c!"," ++ sp ++ c!"," ++ sp') ++ b) = tidied isWord (a ++ c!", " ++ b) := by
  have nosp : ∀ c, isWord c = true → isSpace c = false := by
    intro c hc
    cases h : isSpace c with
    | false => rfl
    | true => rw [hspw c h] at hc; cases hc
  have h1 := nosp l hlw
  have h3 := nosp h hhw
  have hcm : isSpace ',' = false := by decide
  have hln : l ≠ ',' := by rintro rfl; rw [hcw] at hlw; cases hlw
  have hhn : h ≠ ',' := by rintro rfl; rw [hcw] at hhw; cases hhw
  -- what the comma rule makes of the commas
  have comma : ∀ x : Str, (∀ c ∈ x, c = ',' ∨ isSpace c = true) → ∀ y : Str,
      (∀ p, subFrom mComma p (x ++ dehyphen isWord b) = y ++ decomma isWord b) →
      decomma isWord (a ++ x ++ b) = decomma isWord a ++ y ++ decomma isWord b := by
    intro x hx y hy
    have hx' : ∀ c ∈ x, c ≠ '(' ∧ c ≠ ')' ∧ c ≠ '-' := by
      intro c hc
      rcases hx c hc with rfl | h
      · decide
      · have := space_not_special h; exact ⟨this.1, this.2.1, this.2.2.1⟩
    have hy0 := hy none
    unfold decomma at hy0 ⊢
    rw [dehyphen_context hl h1 h2 h2' (fun h => (hx' _ h).1 rfl) (fun h => (hx' _ h).2.1 rfl)
        (fun h => (hx' _ h).2.2 rfl) hh h3 h4 h4', List.append_assoc,
      mComma_split (q := none) (dehyphen_last hl h1) h1 h2'', hy0, List.append_assoc]
  -- the rules after it
  have after : ∀ sp sp' : Str, (∀ c ∈ sp, isSpace c = true) → (∀ c ∈ sp', isSpace c = true) →
      subFrom (mEmpty isWord) none (subFrom mUnderscore none
        (decomma isWord a ++ (c!"," ++ sp ++ c!"," ++ sp') ++ decomma isWord b)) =
      subFrom (mEmpty isWord) none (subFrom mUnderscore none (decomma isWord a)) ++ c!", " ++
        subFrom (mEmpty isWord) none (subFrom mUnderscore none (decomma isWord b)) := by
    intro sp sp' hsp hsp'
    have hla := decomma_last (isWord := isWord) hl h1 h2''
    have hhb := decomma_head (isWord := isWord) hh h3 h4''
    have hx : '_' ∉ c!"," ++ sp ++ c!"," ++ sp' := by
      intro hc
      simp only [List.mem_append, List.mem_singleton] at hc
      rcases hc with ((hc | hc) | hc) | hc
      · exact absurd hc (by decide)
      · exact absurd (hsp _ hc) (by decide)
      · exact absurd hc (by decide)
      · exact absurd (hsp' _ hc) (by decide)
    rw [mUnderscore_context (q := none) hla h1 h2u hx hhb h3 h4u]
    have hla' : (subFrom mUnderscore none (decomma isWord a)).getLast? = some l :=
      subFrom_last _ mUnderscore_size hla ⟨h1, h2u⟩
    have hhb' : (subFrom mUnderscore none (decomma isWord b)).head? = some h := mUnderscore_head hhb h3
    rw [List.append_assoc, mEmpty_split hla' h1 hln]
    refine Eq.trans ?_ (List.append_assoc _ _ _).symm
    congr 1
    generalize subFrom mUnderscore none (decomma isWord b) = b at hhb'
    have r1 : runLen isSpace (sp ++ (',' :: (sp' ++ b))) = sp.length :=
      runLen_append hsp fun c hc => by cases hc; exact hcm
    have r2 : runLen isSpace (sp' ++ b) = sp'.length :=
      runLen_append hsp' fun c hc => by rw [hhb'] at hc; cases hc; exact h3
    have hm : mEmpty isWord (some l) (c!"," ++ sp ++ c!"," ++ sp' ++ b) =
        some ((sp.length + 1 + sp'.length) + 1, c!", ") := by
      have e : c!"," ++ sp ++ c!"," ++ sp' ++ b = ',' :: (sp ++ (',' :: (sp' ++ b))) := by simp
      rw [e]
      simp only [mEmpty, r1]
      rw [if_neg (by simp [boundary, hlw, hcw]), List.drop_left]
      simp only [r2]
      rw [List.drop_left, hhb', if_pos (by simpa using hhw)]
      congr 2
      omega
    rw [subFrom_match (by simp) hm]
    have hd : (c!"," ++ sp ++ c!"," ++ sp' ++ b).drop (sp.length + 1 + sp'.length + 1) = b := by
      have : sp.length + 1 + sp'.length + 1 = (c!"," ++ sp ++ c!"," ++ sp').length := by simp; omega
      rw [this, List.drop_left]
    rw [hd, mEmpty_start hhb' hhn]
  have after' : subFrom (mEmpty isWord) none (subFrom mUnderscore none
        (decomma isWord a ++ c!", " ++ decomma isWord b)) =
      subFrom (mEmpty isWord) none (subFrom mUnderscore none (decomma isWord a)) ++ c!", " ++
        subFrom (mEmpty isWord) none (subFrom mUnderscore none (decomma isWord b)) := by
    have hla := decomma_last (isWord := isWord) hl h1 h2''
    have hhb := decomma_head (isWord := isWord) hh h3 h4''
    rw [mUnderscore_context (q := none) hla h1 h2u (by decide) hhb h3 h4u]
    have hla' : (subFrom mUnderscore none (decomma isWord a)).getLast? = some l :=
      subFrom_last _ mUnderscore_size hla ⟨h1, h2u⟩
    have hhb' : (subFrom mUnderscore none (decomma isWord b)).head? = some h := mUnderscore_head hhb h3
    rw [List.append_assoc, mEmpty_split hla' h1 hln]
    refine Eq.trans ?_ (List.append_assoc _ _ _).symm
    congr 1
    generalize subFrom mUnderscore none (decomma isWord b) = b at hhb'
    have hsp1 : isSpace ' ' = true := by decide
    rw [subFrom_skip, mEmpty_start hhb' hhn]
    intro p t ht hs
    cases b with
    | nil => cases hhb'
    | cons e b =>
      cases hhb'
      have : t = c!", " ∨ t = c!" " := by
        rcases List.suffix_cons_iff.1 hs with h | h
        · exact .inl h
        · rcases List.suffix_cons_iff.1 h with h | h
          · exact .inr h
          · exact absurd (List.suffix_nil.1 h) ht
      rcases this with rfl | rfl
      · simp [mEmpty, runLen, hsp1, h3, hhn]
      · simp [mEmpty]
  have hbd := dehyphen_head (isWord := isWord) hh h3
  have hskip : ¬ isPhraseStart h = true → ∀ x : Str, (∀ c ∈ x, c = ',' ∨ isSpace c = true) → ∀ p,
      subFrom mComma p (x ++ dehyphen isWord b) = x ++ decomma isWord b := by
    intro hps x hx p
    rw [subFrom_skip]
    · congr 1
      exact subFrom_prev rfl
    · intro p t ht hs
      unfold mComma
      dsimp only
      split
      · rfl
      · rw [if_neg]
        intro hany
        obtain ⟨d, hd, hd'⟩ := (Option.any_eq_true _ _).1 hany
        have hns := runLen_drop_head hd
        obtain ⟨t1, g1, f1⟩ := run_drop (p := isSpace) (x := t) hbd h3
        obtain ⟨t2, g2, f2⟩ := run_drop (p := isListSep) (x := t1) hbd h4''
        obtain ⟨t3, g3, f3⟩ := run_drop (p := isSpace) (x := t2) hbd h3
        rw [f1, f2, f3] at hd
        cases t3 with
        | nil =>
          rw [List.nil_append, hbd] at hd
          cases hd
          exact hps hd'
        | cons e t3 =>
          cases hd
          rcases hx d ((g3.trans (g2.trans (g1.trans hs))).subset (by simp)) with rfl | hsd
          · exact absurd hd' (by decide)
          · rw [hns] at hsd; cases hsd
  have e1 : ∃ sp1 sp1' : Str, (∀ c ∈ sp1, isSpace c = true) ∧ (∀ c ∈ sp1', isSpace c = true) ∧
      (decomma isWord (a ++ (c!"," ++ sp ++ c!"," ++ sp') ++ b) =
          decomma isWord a ++ (c!"," ++ sp1 ++ c!"," ++ sp1') ++ decomma isWord b ∨
        decomma isWord (a ++ (c!"," ++ sp ++ c!"," ++ sp') ++ b) =
          decomma isWord a ++ c!", " ++ decomma isWord b) := by
    have hx : ∀ c ∈ c!"," ++ sp ++ c!"," ++ sp', c = ',' ∨ isSpace c = true := by
      intro c hc
      simp only [List.mem_append, List.mem_singleton] at hc
      rcases hc with ((hc | hc) | hc) | hc
      · exact .inl hc
      · exact .inr (hsp _ hc)
      · exact .inl hc
      · exact .inr (hsp' _ hc)
    by_cases hps : isPhraseStart h = true
    · by_cases hse : sp = []
      · subst hse
        refine ⟨[], [], by simp, by simp, .inr (comma _ hx _ fun p => ?_)⟩
        have := mComma_applies (prev := p) (q := none) (sp := []) (seps := c!",,") (sp' := sp') (by simp) (by simp)
          (by decide) hsp' hbd h3 h4'' hps
        simpa [decomma] using this
      · refine ⟨[], c!" ", by simp, by decide, .inl (comma _ hx _ fun p => ?_)⟩
        have h5 := mComma_applies (prev := some ',') (q := none) (sp := sp) (seps := c!",") (sp' := sp') hsp (by simp)
          (by decide) hsp' hbd h3 h4'' hps
        have hnone : mComma p (',' :: (sp ++ c!"," ++ sp' ++ dehyphen isWord b)) = none := by
          have r0 : runLen isSpace (',' :: (sp ++ c!"," ++ sp' ++ dehyphen isWord b)) = 0 := by simp [runLen, hcm]
          obtain ⟨s0, sp, rfl⟩ : ∃ s0 t, sp = s0 :: t := by
            cases sp with
            | nil => exact absurd rfl hse
            | cons a b => exact ⟨a, b, rfl⟩
          have hs0 := (space_not_special (hsp s0 (by simp))).2.2.2.2.2
          have r1 : runLen isListSep (',' :: (s0 :: sp ++ c!"," ++ sp' ++ dehyphen isWord b)) = 1 := by
            have : isListSep ',' = true := by decide
            simp [runLen, hs0, this]
          have r2 : runLen isSpace ((s0 :: sp) ++ (',' :: (sp' ++ dehyphen isWord b))) = (s0 :: sp).length :=
            runLen_append hsp fun c hc => by cases hc; exact hcm
          unfold mComma
          dsimp only
          rw [r0, List.drop_zero, r1, List.drop_succ_cons, List.drop_zero]
          have e : (s0 :: sp) ++ c!"," ++ sp' ++ dehyphen isWord b = (s0 :: sp) ++ (',' :: (sp' ++ dehyphen isWord b)) := by
            simp
          rw [e, r2, List.drop_left]
          rfl
        have e : c!"," ++ sp ++ c!"," ++ sp' ++ dehyphen isWord b = ',' :: (sp ++ c!"," ++ sp' ++ dehyphen isWord b) := by
          simp
        rw [e, subFrom_none hnone, h5]
        rfl
    · exact ⟨sp, sp', hsp, hsp', .inl (comma _ hx _ fun p => hskip hps _ hx p)⟩
  obtain ⟨sp1, sp1', q1, q2, q3⟩ := e1
  have e2 : decomma isWord (a ++ c!", " ++ b) = decomma isWord a ++ c!", " ++ decomma isWord b := by
    refine comma _ (by decide) _ fun p => ?_
    by_cases hps : isPhraseStart h = true
    · exact mComma_applies (prev := p) (q := none) (sp := []) (seps := c!",") (sp' := c!" ") (by simp) (by simp)
        (by decide) (by decide) hbd h3 h4'' hps
    · exact hskip hps _ (by decide) p
  rw [tidied_unparen, tidied_unparen]
  unfold decomma dehyphen at q3 e2 after after'
  rw [e2, after']
  rcases q3 with q3 | q3
  · rw [q3, after _ _ q1 q2]
  · rw [q3, after']

end Verif
