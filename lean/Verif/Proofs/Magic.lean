import Verif.Proofs.Generators
/-! Lemmas about the magic prompt generator. -/

namespace Verif
open Spec
variable {W : Type}

/-! ## The blocklist -/

theorem mem_blockedAt {blocked : Str → Bool} {f : Nat} {l : List Str} {i : Nat} :
    i ∈ blockedAt blocked f l ↔ f ≤ i ∧ ∃ p, l[i - f]? = some p ∧ blocked p = true := by
  induction l generalizing f with
  | nil => simp [blockedAt]
  | cons a l ih =>
    have key : (∃ p, f + 1 ≤ i ∧ l[i - (f + 1)]? = some p ∧ blocked p = true) ↔
        ∃ p, f < i ∧ (a :: l)[i - f]? = some p ∧ blocked p = true := by
      constructor
      · rintro ⟨p, h1, h2, h3⟩
        refine ⟨p, by omega, ?_, h3⟩
        rw [show i - f = (i - (f + 1)) + 1 by omega]
        exact h2
      · rintro ⟨p, h1, h2, h3⟩
        refine ⟨p, by omega, ?_, h3⟩
        rw [show i - f = (i - (f + 1)) + 1 by omega] at h2
        exact h2
    simp only [blockedAt]
    split
    · rename_i hb
      rw [List.mem_cons, ih]
      constructor
      · rintro (rfl | ⟨h1, p, h2⟩)
        · exact ⟨Nat.le_refl _, a, by simp, hb⟩
        · obtain ⟨p, h3, h4⟩ := key.1 ⟨p, h1, h2⟩
          exact ⟨by omega, p, h4⟩
      · rintro ⟨h1, p, h2⟩
        by_cases hi : i = f
        · exact .inl hi
        · obtain ⟨p, h3, h4⟩ := key.2 ⟨p, by omega, h2⟩
          exact .inr ⟨h3, p, h4⟩
    · rename_i hb
      rw [ih]
      constructor
      · rintro ⟨h1, p, h2⟩
        obtain ⟨p, h3, h4⟩ := key.1 ⟨p, h1, h2⟩
        exact ⟨by omega, p, h4⟩
      · rintro ⟨h1, p, h2, h3⟩
        by_cases hi : i = f
        · subst hi
          simp at h2
          subst h2
          exact absurd h3 hb
        · obtain ⟨p, h3, h4⟩ := key.2 ⟨p, by omega, h2, h3⟩
          exact ⟨h3, p, h4⟩

theorem blockedAt_sorted (blocked : Str → Bool) (f : Nat) (l : List Str) :
    (blockedAt blocked f l).Pairwise (· < ·) := by
  induction l generalizing f with
  | nil => exact .nil
  | cons a l ih =>
    simp only [blockedAt]
    split
    · refine List.pairwise_cons.2 ⟨fun i hi => ?_, ih (f + 1)⟩
      have := (mem_blockedAt.1 hi).1
      omega
    · exact ih (f + 1)

theorem lookupAll_ok {l : List Str} {is : List Nat} (h : ∀ i ∈ is, i < l.length) :
    ∃ xs, lookupAll l is = .ok xs ∧ xs.map some = is.map (fun i => l[i]?) := by
  induction is with
  | nil => exact ⟨[], rfl, rfl⟩
  | cons i is ih =>
    obtain ⟨xs, h1, h2⟩ := ih fun j hj => h j (by simp [hj])
    have hi := h i (by simp)
    refine ⟨l[i] :: xs, by simp [lookupAll, List.getElem?_eq_getElem hi, h1], ?_⟩
    simp [h2, List.getElem?_eq_getElem hi]

theorem putAll_length (l : List Str) (ps : List (Nat × Str)) : (putAll l ps).length = l.length := by
  induction ps generalizing l with
  | nil => rfl
  | cons p ps ih => rw [putAll, ih]; simp

theorem putAll_other {l : List Str} {ps : List (Nat × Str)} {i : Nat} (h : i ∉ ps.map (·.1)) :
    (putAll l ps)[i]? = l[i]? := by
  induction ps generalizing l with
  | nil => rfl
  | cons p ps ih =>
    simp only [List.map_cons, List.mem_cons, not_or] at h
    rw [putAll, ih h.2, List.getElem?_set_ne (Ne.symm h.1)]

theorem putAll_at {l : List Str} {is : List Nat} {xs : List Str} (hnd : is.Nodup)
    (hlen : is.length = xs.length) (hlt : ∀ i ∈ is, i < l.length) :
    is.map (fun i => (putAll l (is.zip xs))[i]?) = xs.map some := by
  induction is generalizing l xs with
  | nil =>
    cases xs with
    | nil => rfl
    | cons => simp at hlen
  | cons i is ih =>
    cases xs with
    | nil => simp at hlen
    | cons x xs =>
      obtain ⟨h1, h2⟩ := List.nodup_cons.1 hnd
      have hl : is.length = xs.length := by simpa using hlen
      have hm : (is.zip xs).map (·.1) = is := List.map_fst_zip (by omega)
      simp only [List.zip_cons_cons, List.map_cons, putAll]
      refine List.cons_eq_cons.2 ⟨?_, ih h2 hl (by simpa using fun j hj => hlt j (by simp [hj]))⟩
      rw [putAll_other (by rw [hm]; exact h1)]
      simp [hlt i (by simp)]

theorem regenerate_rounds {blocked : Str → Bool} {batch : List Str → M W (List Str)} {origs : List Str}
    (hb : ∀ ps w out w', batch ps w = .ok out w' → out.length = ps.length)
    {k : Nat} {now out : List Str} {w w' : W} (hlen : now.length = origs.length)
    (h : regenerate blocked batch origs k now w = .ok out w') :
    ∃ n, n ≤ k ∧ Rounds blocked batch origs n now w out w' ∧
      (n < k → ∀ p ∈ out, blocked p = false) := by
  induction k generalizing now w with
  | zero =>
    simp only [regenerate, M.pure_ok_iff] at h
    obtain ⟨rfl, rfl⟩ := h
    exact ⟨0, Nat.le_refl _, .stop, fun h => absurd h (by omega)⟩
  | succ k ih =>
    simp only [regenerate] at h
    cases hidx : blockedAt blocked 0 now with
    | nil =>
      rw [hidx] at h
      simp only [M.pure_ok_iff] at h
      obtain ⟨rfl, rfl⟩ := h
      refine ⟨0, by omega, .stop, fun _ p hp => ?_⟩
      by_contra hc
      obtain ⟨i, hi, he⟩ := List.mem_iff_getElem.1 hp
      have : i ∈ blockedAt blocked 0 now :=
        mem_blockedAt.2 ⟨by omega, p, by simp [List.getElem?_eq_getElem hi, he], by simpa using hc⟩
      rw [hidx] at this
      simp at this
    | cons i is =>
      rw [hidx] at h
      simp only at h
      rw [← hidx] at h
      have hmem : ∀ j, j ∈ blockedAt blocked 0 now ↔ ∃ p, now[j]? = some p ∧ blocked p = true := by
        intro j; rw [mem_blockedAt]; simp
      have hlt : ∀ j ∈ blockedAt blocked 0 now, j < now.length := by
        intro j hj
        obtain ⟨p, hp, -⟩ := (hmem j).1 hj
        exact (List.getElem?_eq_some_iff.1 hp).1
      obtain ⟨xs, hx1, hx2⟩ := lookupAll_ok (l := origs) (is := blockedAt blocked 0 now)
        (fun j hj => hlen ▸ hlt j hj)
      obtain ⟨ps, w0, h1, h2⟩ := M.bind_ok.1 h
      rw [hx1] at h1
      cases h1
      obtain ⟨new, w1, h3, h4⟩ := M.bind_ok.1 h2
      have hnew := hb _ _ _ _ h3
      have hxl : xs.length = (blockedAt blocked 0 now).length := by
        have := congrArg List.length hx2; simpa using this
      obtain ⟨n, hn, hr, hc⟩ := ih (by rw [putAll_length, hlen]) h4
      have hm : ((blockedAt blocked 0 now).zip new).map (·.1) = blockedAt blocked 0 now :=
        List.map_fst_zip (by omega)
      refine ⟨n + 1, by omega, .again (blockedAt blocked 0 now) (by rw [hidx]; simp)
        (blockedAt_sorted _ _ _) hmem hx2 h3 (putAll_length _ _)
        (fun j hj => putAll_other (by rw [hm]; exact hj))
        (putAll_at ((blockedAt_sorted _ _ _).imp (fun h => Nat.ne_of_lt h)) (by omega) hlt) hr,
        fun h => hc (by omega)⟩

theorem Rounds.keeps {blocked : Str → Bool} {batch : List Str → M W (List Str)} {origs : List Str}
    {n : Nat} {now out : List Str} {w w' : W} (h : Spec.Rounds blocked batch origs n now w out w') :
    out.length = now.length ∧ ∀ (i : Nat) p, now[i]? = some p → blocked p = false → out[i]? = some p := by
  induction h with
  | stop => exact ⟨rfl, fun _ _ h _ => h⟩
  | again at_ _ _ h3 _ _ h6 h7 _ _ ih =>
    refine ⟨ih.1.trans h6, fun i p hp hb => ih.2 i p ?_ hb⟩
    rw [h7 i, hp]
    intro hi
    obtain ⟨q, hq, hqb⟩ := (h3 i).1 hi
    rw [hp] at hq
    cases hq
    simp [hb] at hqb

theorem Rounds.from {blocked : Str → Bool} {batch : List Str → M W (List Str)} {origs : List Str}
    {n : Nat} {now out : List Str} {w w' : W} (h : Spec.Rounds blocked batch origs n now w out w')
    (P : Str → Str → Prop)
    (hP : ∀ asked answers w w' (j : Nat) a b, batch asked w = .ok answers w' → asked[j]? = some a →
      answers[j]? = some b → P a b)
    (h0 : ∀ (i : Nat) a b, origs[i]? = some a → now[i]? = some b → P a b) :
    ∀ (i : Nat) a b, origs[i]? = some a → out[i]? = some b → P a b := by
  induction h with
  | stop => exact h0
  | @again n now next after asked answers w w1 w2 at_ _ _ h3 h4 h5 h6 h7 h8 _ ih =>
    refine ih fun i a b ha hb => ?_
    by_cases hi : i ∈ at_
    · obtain ⟨j, hj, rfl⟩ := List.mem_iff_getElem.1 hi
      refine hP asked answers w w1 j a b h5 ?_ ?_
      · have := congrArg (·[j]?) h4
        simp only [List.getElem?_map, List.getElem?_eq_getElem hj, Option.map_some, ha] at this
        cases hx : asked[j]? with
        | none => rw [hx] at this; cases this
        | some x => rw [hx] at this; simpa using this
      · have := congrArg (·[j]?) h8
        simp only [List.getElem?_map, List.getElem?_eq_getElem hj, Option.map_some, hb] at this
        cases hx : answers[j]? with
        | none => rw [hx] at this; cases this
        | some x => rw [hx] at this; simpa using this.symm
    · exact h0 i a b ha (by rw [← h7 i hi]; exact hb)

theorem regenerate_succeeds {blocked : Str → Bool} {batch : List Str → M W (List Str)} {origs : List Str}
    (hb : ∀ ps w, ∃ out w', batch ps w = .ok out w')
    {k : Nat} {now : List Str} {w : W} (hlen : now.length = origs.length) :
    ∃ out w', regenerate blocked batch origs k now w = .ok out w' := by
  induction k generalizing now w with
  | zero => exact ⟨now, w, rfl⟩
  | succ k ih =>
    simp only [regenerate]
    cases hidx : blockedAt blocked 0 now with
    | nil => exact ⟨now, w, rfl⟩
    | cons i is =>
      obtain ⟨xs, hx1, -⟩ := lookupAll_ok (l := origs) (is := i :: is) (by
        intro j hj
        rw [← hidx, mem_blockedAt] at hj
        obtain ⟨-, p, hp, -⟩ := hj
        have := (List.getElem?_eq_some_iff.1 hp).1
        omega)
      obtain ⟨new, w1, h1⟩ := hb xs w
      obtain ⟨out, w', h2⟩ := ih (now := putAll now ((i :: is).zip new)) (w := w1) (by rw [putAll_length, hlen])
      refine ⟨out, w', ?_⟩
      simp only
      rw [M.bind_of_ok (a := xs) (w' := w) (by rw [hx1]; rfl), M.bind_of_ok h1, h2]

/-! ## Cleaning -/

section Clean
variable {P : Char → Prop}

theorem all_stripP {p : Char → Bool} {s : Str} (h : ∀ c ∈ s, P c) : ∀ c ∈ stripP p s, P c :=
  fun c hc => h c (Occurs.mem (occurs_stripP p s) c hc)

theorem all_subN {m : Option Char → Str → Option (Nat × Str)}
    (hm : ∀ prev s k r, m prev s = some (k, r) → ∀ c ∈ r, P c) {n : Nat} {prev : Option Char} {s : Str}
    (h : ∀ c ∈ s, P c) : ∀ c ∈ subN m n prev s, P c := by
  induction n generalizing prev s with
  | zero => exact h
  | succ n ih =>
    cases s with
    | nil => simp [subN]
    | cons a s =>
      simp only [subN]
      split
      · rename_i k r hk
        intro c hc
        rcases List.mem_append.1 hc with hc | hc
        · exact hm _ _ _ _ hk c hc
        · exact ih (fun d hd => h d (List.mem_of_mem_drop hd)) c hc
      · intro c hc
        rcases List.mem_cons.1 hc with rfl | hc
        · exact h c (by simp)
        · exact ih (fun d hd => h d (by simp [hd])) c hc

theorem all_reSub {m : Option Char → Str → Option (Nat × Str)}
    (hm : ∀ prev s k r, m prev s = some (k, r) → ∀ c ∈ r, P c) {s : Str}
    (h : ∀ c ∈ s, P c) : ∀ c ∈ reSub m s, P c := all_subN hm h

theorem all_replaceN {pat new s : Str} {n : Nat} (hn : ∀ c ∈ new, P c) (h : ∀ c ∈ s, P c) :
    ∀ c ∈ replaceN pat new n s, P c := by
  induction n generalizing s with
  | zero => exact h
  | succ n ih =>
    simp only [replaceN]
    cases hf : findSub pat s with
    | none => exact h
    | some p =>
      obtain ⟨a, b⟩ := p
      obtain ⟨h1, -⟩ := findSub_some hf
      subst h1
      intro c hc
      simp only [List.mem_append] at hc
      rcases hc with (hc | hc) | hc
      · exact h c (by simp [hc])
      · exact hn c hc
      · exact ih (fun d hd => h d (by simp [hd])) c hc

theorem all_replaceAll {pat new s : Str} (hn : ∀ c ∈ new, P c) (h : ∀ c ∈ s, P c) :
    ∀ c ∈ replaceAll s pat new, P c := by
  unfold replaceAll
  split
  · intro c hc
    simp only [List.mem_append, List.mem_flatMap, List.mem_cons] at hc
    rcases hc with hc | ⟨d, hd, rfl | hc⟩
    · exact hn c hc
    · exact h c hd
    · exact hn c hc
  · exact all_replaceN hn h

theorem findBangs_all {isWord : Char → Bool} {n : Nat} {prev : Option Char} {s : Str}
    (h : ∀ c ∈ s, P c) : ∀ x ∈ findBangs isWord n prev s, ∀ c ∈ x.1, P c := by
  induction n generalizing prev s with
  | zero => simp [findBangs]
  | succ n ih =>
    cases s with
    | nil => simp [findBangs]
    | cons a s =>
      simp only [findBangs]
      split
      · intro x hx c hc
        rcases List.mem_cons.1 hx with rfl | hx
        · exact h c (List.mem_of_mem_take hc)
        · exact ih (fun d hd => h d (List.mem_of_mem_drop hd)) x hx c hc
      · exact ih fun d hd => h d (by simp [hd])

theorem applyBangs_all {weight : Nat → Str} {ms : List (Str × Nat)} {s : Str}
    (hp : P '(' ∧ P ':' ∧ P ')') (hw : ∀ n, ∀ c ∈ weight n, P c)
    (hm : ∀ x ∈ ms, ∀ c ∈ x.1, P c) (h : ∀ c ∈ s, P c) : ∀ c ∈ applyBangs weight ms s, P c := by
  induction ms generalizing s with
  | nil => exact h
  | cons x ms ih =>
    obtain ⟨phrase, n⟩ := x
    refine ih (fun y hy => hm y (by simp [hy])) (all_replaceAll ?_ h)
    intro c hc
    simp only [List.mem_append, List.mem_singleton] at hc
    rcases hc with (((rfl | hc) | rfl) | hc) | rfl
    · exact hp.1
    · exact hm (phrase, n) (by simp) c hc
    · exact hp.2.1
    · exact hw n c hc
    · exact hp.2.2

theorem cleanAdded_all {isWord : Char → Bool} {weight : Nat → Str} {s : Str}
    (hp : ∀ c ∈ c!"(:)-, ", P c) (hw : ∀ n, ∀ c ∈ weight n, P c) (h : ∀ c ∈ s.map deBrace, P c) :
    ∀ c ∈ cleanAdded isWord weight s, P c := by
  have hp' : P '(' ∧ P ':' ∧ P ')' ∧ P '-' ∧ P ',' ∧ P ' ' := by
    simpa using hp
  obtain ⟨p1, p2, p3, p4, p5, p6⟩ := hp'
  have key : ∀ c ∈ reSub (mEmpty isWord) (reSub mUnderscore (reSub mComma (reSub (mHyphen isWord)
      (reSub mClose (reSub mOpen (stripP (fun c => !isWord c) (strip (s.map deBrace)))))))), P c := by
    refine all_reSub ?_ (all_reSub ?_ (all_reSub ?_ (all_reSub ?_ (all_reSub ?_ (all_reSub ?_
      (all_stripP (all_stripP h))))))) <;> intro prev t k r hm
    · unfold mEmpty at hm
      split at hm
      · split at hm
        · cases hm
        · dsimp only at hm
          split at hm
          · split at hm
            · cases hm; simp [p5, p6]
            · cases hm
          · cases hm
      · cases hm
    · unfold mUnderscore at hm
      dsimp only at hm
      split at hm
      · cases hm
      · cases hm; simp [p6]
    · unfold mComma at hm
      dsimp only at hm
      split at hm
      · cases hm
      · split at hm
        · cases hm; simp [p5, p6]
        · cases hm
    · unfold mHyphen at hm
      dsimp only at hm
      split at hm
      · cases hm
      · split at hm
        · split at hm
          · cases hm
          · split at hm
            · cases hm; simp [p4]
            · cases hm
        · cases hm
    · unfold mClose at hm
      dsimp only at hm
      split at hm
      · cases hm
      · split at hm
        · cases hm; simp [p3]
        · cases hm
    · unfold mOpen at hm
      split at hm
      · split at hm
        · cases hm
        · cases hm; simp [p1]
      · cases hm
  exact applyBangs_all ⟨p1, p2, p3⟩ hw (findBangs_all key) key

end Clean

/-! ## Switching models -/

/-- What holds after every history; `c` is the name of the last request. -/
structure MagicInv (s : MagicState) (names : List Str) (reqs : List (Str × Bool)) : Prop where
  length : s.instances.length = names.length
  name : s.name = (reqs.getLast?).map (·.1)
  loads : s.loads = loadsNeeded none reqs
  pipe : ∀ p, s.pipeline = some p → s.name = some p.1 ∧ p.2 < s.loads
  inst : ∀ (i : Nat) p m, s.instances[i]? = some p → names[i]? = some m →
    p = none ∨ ∃ k, p = some (m, k) ∧ k < s.loads
  good : (∀ r ∈ reqs, r.2 = true) → (s.name ≠ none → s.pipeline ≠ none) ∧ ∀ p ∈ s.instances, p ≠ none

theorem loadsNeeded_append (prev : Option Str) (reqs : List (Str × Bool)) (m : Str) (ok : Bool) :
    loadsNeeded prev (reqs ++ [(m, ok)]) = loadsNeeded prev reqs +
      (if ((reqs.getLast?).map (·.1) <|> prev) ≠ some m ∧ ok = true then 1 else 0) := by
  induction reqs generalizing prev with
  | nil => simp [loadsNeeded]
  | cons r reqs ih =>
    obtain ⟨a, b⟩ := r
    rw [List.cons_append, loadsNeeded, loadsNeeded, ih, Nat.add_assoc]
    congr 2
    cases reqs with
    | nil => simp
    | cons x xs =>
      simp [List.getLast?_cons_cons, List.getLast?_eq_some_getLast (l := x :: xs) (by simp)]

theorem setModel_inv {s : MagicState} {names : List Str} {reqs : List (Str × Bool)}
    (h : MagicInv s names reqs) (m : Str) (ok : Bool) :
    (∀ s' r, s.setModel m ok = (s', r) →
      s'.instances = s.instances ∧ s'.name = some m ∧ s.loads ≤ s'.loads ∧
      s'.loads = loadsNeeded none (reqs ++ [(m, ok)]) ∧
      (∀ p, s'.pipeline = some p → p.1 = m ∧ p.2 < s'.loads) ∧
      (∀ p, r = some p → p = s'.pipeline) ∧
      (r = none → ok = false) ∧
      ((∀ x ∈ reqs ++ [(m, ok)], x.2 = true) → s'.pipeline ≠ none ∧ ∀ p ∈ s'.instances, p ≠ none)) := by
  intro s' r hs
  have hl := loadsNeeded_append none reqs m ok
  have hor : ((reqs.getLast?).map (·.1) <|> none) = s.name := by rw [h.name]; cases reqs.getLast? <;> rfl
  rw [hor, ← h.loads] at hl
  unfold MagicState.setModel at hs
  by_cases hn : s.name ≠ some m
  · rw [if_pos hn] at hs
    cases ok with
    | true =>
      simp only [if_true] at hs
      cases hs
      rw [if_pos ⟨hn, rfl⟩] at hl
      refine ⟨rfl, rfl, by simp, by simp [hl], ?_, ?_, by simp, ?_⟩
      · rintro p ⟨⟩; exact ⟨rfl, by simp⟩
      · rintro p ⟨⟩; rfl
      · intro hall
        exact ⟨by simp, (h.good fun x hx => hall x (by simp [hx])).2⟩
    | false =>
      simp only [Bool.false_eq_true, if_false] at hs
      cases hs
      rw [if_neg (by simp)] at hl
      refine ⟨rfl, rfl, Nat.le_refl _, by simp [hl], by simp, by simp, by simp, ?_⟩
      intro hall
      have := hall (m, false) (by simp)
      cases this
  · rw [if_neg hn] at hs
    cases hs
    have hn' : s.name = some m := by simpa using hn
    rw [if_neg (by simp [hn'])] at hl
    refine ⟨rfl, hn', Nat.le_refl _, by simp [hl], ?_, ?_, by simp, ?_⟩
    · intro p hp
      obtain ⟨h1, h2⟩ := h.pipe p hp
      rw [hn'] at h1
      exact ⟨(Option.some.inj h1).symm, h2⟩
    · rintro p ⟨⟩; rfl
    · intro hall
      obtain ⟨h1, h2⟩ := h.good fun x hx => hall x (by simp [hx])
      exact ⟨h1 (by rw [hn']; simp), h2⟩

theorem magic_inv {s : MagicState} {names : List Str} {reqs : List (Str × Bool)}
    (h : MagicHistory s names reqs) : MagicInv s names reqs := by
  induction h with
  | start =>
    exact ⟨rfl, rfl, rfl, by simp [MagicState.init], by simp [MagicState.init], by simp [MagicState.init]⟩
  | @step s names reqs op _ ih =>
    have hold : ∀ {s' : MagicState}, s.loads ≤ s'.loads → ∀ (i : Nat) p m, s.instances[i]? = some p →
        names[i]? = some m → p = none ∨ ∃ k, p = some (m, k) ∧ k < s'.loads := by
      intro s' hs i p m h1 h2
      rcases ih.inst i p m h1 h2 with h3 | ⟨k, h3, h4⟩
      · exact .inl h3
      · exact .inr ⟨k, h3, by omega⟩
    have hnew : ∀ {m : Str} {p : Option (Str × Nat)} {n : Nat}, (∀ q, p = some q → q.1 = m ∧ q.2 < n) →
        p = none ∨ ∃ k, p = some (m, k) ∧ k < n := by
      intro m p n hq
      cases p with
      | none => exact .inl rfl
      | some q =>
        obtain ⟨a, b⟩ := q
        obtain ⟨rfl, h2⟩ := hq _ rfl
        exact .inr ⟨b, rfl, h2⟩
    cases op with
    | new m ok =>
      cases hs : s.setModel m ok with
      | mk s' r =>
        obtain ⟨h1, h2, h3, h4, h5, h6, h7, h8⟩ := setModel_inv ih m ok s' r hs
        cases r with
        | none =>
          simp only [MagicState.step, hs, askedNames, requestOf, if_true]
          exact ⟨by rw [h1, ih.length], by simp [h2], h4,
            fun p hp => ⟨by rw [h2, (h5 p hp).1], (h5 p hp).2⟩,
            by rw [h1]; exact hold h3, fun hall => ⟨fun _ => (h8 hall).1, (h8 hall).2⟩⟩
        | some p =>
          have hp := h6 p rfl
          simp only [MagicState.step, hs, askedNames, requestOf, Bool.false_eq_true, if_false]
          refine ⟨by simp [h1, ih.length], by simp [h2], h4,
            fun p hp => ⟨by simp only [h2]; rw [(h5 p hp).1], (h5 p hp).2⟩, ?_, ?_⟩
          · intro i q m' hi hm
            simp only [h1] at hi
            by_cases hlt : i < s.instances.length
            · rw [List.getElem?_append_left hlt] at hi
              rw [List.getElem?_append_left (by rw [← ih.length]; exact hlt)] at hm
              exact hold h3 i q m' hi hm
            · rw [List.getElem?_append_right (by omega)] at hi
              rw [List.getElem?_append_right (by rw [← ih.length]; omega)] at hm
              have e1 := (List.mem_singleton.1 (List.mem_of_getElem? hi))
              have e2 := (List.mem_singleton.1 (List.mem_of_getElem? hm))
              subst e1 e2
              exact hnew (fun x hx => h5 x (by rw [← hp]; exact hx))
          · intro hall
            obtain ⟨g1, g2⟩ := h8 hall
            refine ⟨fun _ => g1, ?_⟩
            intro q hq
            rcases List.mem_append.1 hq with hq | hq
            · exact g2 q hq
            · rw [List.mem_singleton.1 hq, hp]; exact g1
    | set i m ok =>
      by_cases hi : i < s.instances.length
      · cases hs : s.setModel m ok with
        | mk s' r =>
          obtain ⟨h1, h2, h3, h4, h5, h6, h7, h8⟩ := setModel_inv ih m ok s' r hs
          have hi' : i < names.length := by rw [← ih.length]; exact hi
          cases r with
          | none =>
            simp only [MagicState.step, hs, askedNames, requestOf, if_pos hi, if_pos hi', if_true]
            exact ⟨by rw [h1, ih.length], by simp [h2], h4,
              fun p hp => ⟨by rw [h2, (h5 p hp).1], (h5 p hp).2⟩,
              by rw [h1]; exact hold h3, fun hall => ⟨fun _ => (h8 hall).1, (h8 hall).2⟩⟩
          | some p =>
            have hp := h6 p rfl
            simp only [MagicState.step, hs, askedNames, requestOf, if_pos hi, if_pos hi',
              Bool.false_eq_true, if_false]
            refine ⟨by simp [h1, ih.length], by simp [h2], h4,
              fun p hp => ⟨by simp only [h2]; rw [(h5 p hp).1], (h5 p hp).2⟩, ?_, ?_⟩
            · intro j q m' hj hm
              simp only [h1] at hj
              by_cases hij : i = j
              · subst hij
                rw [List.getElem?_set_self hi] at hj
                rw [List.getElem?_set_self hi'] at hm
                cases hj; cases hm
                exact hnew (fun x hx => h5 x (by rw [← hp]; exact hx))
              · rw [List.getElem?_set_ne hij] at hj hm
                exact hold h3 j q m' hj hm
            · intro hall
              obtain ⟨g1, g2⟩ := h8 hall
              refine ⟨fun _ => g1, ?_⟩
              intro q hq
              rcases List.mem_or_eq_of_mem_set hq with hq | hq
              · exact g2 q hq
              · rw [hq, hp]; exact g1
      · have hi' : ¬ i < names.length := by rw [← ih.length]; exact hi
        simp only [MagicState.step, askedNames, requestOf, if_neg hi, if_neg hi', if_true, List.append_nil]
        exact ih

end Verif
