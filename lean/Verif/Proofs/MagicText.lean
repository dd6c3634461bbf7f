import Verif.Proofs.Magic
import Mathlib.Data.List.Chain
/-!
# What cleaning up does to the text
-/

namespace Verif
open Spec (Occurs)

theorem take_runLen (p : Char → Bool) (s : Str) : s.take (runLen p s) = s.takeWhile p := by
  unfold runLen
  induction s with
  | nil => rfl
  | cons c s ih =>
    by_cases h : p c
    · simp [h, ih]
    · simp [h]

theorem filter_run {L p : Char → Bool} (h : ∀ c, p c = true → L c = false) (s : Str) :
    (s.take (runLen p s)).filter L = [] := by
  rw [take_runLen, List.filter_eq_nil_iff]
  intro c hc
  have := List.all_takeWhile (p := p) (l := s)
  simp [h c (List.all_eq_true.1 this c hc)]

theorem subN_filter {L : Char → Bool} {m : Option Char → Str → Option (Nat × Str)}
    (hm : ∀ prev s k r, m prev s = some (k, r) → r.filter L = (s.take k).filter L)
    {n : Nat} {prev : Option Char} {s : Str} : (subN m n prev s).filter L = s.filter L := by
  induction n generalizing prev s with
  | zero => rfl
  | succ n ih =>
    cases s with
    | nil => rfl
    | cons c cs =>
      simp only [subN]
      split
      · rename_i k r hk
        rw [List.filter_append, ih, hm _ _ _ _ hk, ← List.filter_append, List.take_append_drop]
      · rw [List.filter_cons, List.filter_cons, ih]

/-- White space and separators are not counted. -/
structure Kept (L : Char → Bool) : Prop where
  space : ∀ c, isSpace c = true → L c = false
  seps : ∀ c, isListSep c = true → L c = false
  under : L '_' = false

variable {L isWord : Char → Bool}

theorem mOpen_filter (hL : Kept L) (prev : Option Char) (s : Str) (k : Nat) (r : Str)
    (h : mOpen prev s = some (k, r)) : r.filter L = (s.take k).filter L := by
  unfold mOpen at h
  split at h
  · split at h
    · cases h
    · cases h
      rename_i cs _
      have := filter_run hL.space cs
      rw [Nat.add_comm, List.take_succ_cons]
      simp [List.filter_cons, this]
  · cases h

theorem mClose_filter (hL : Kept L) (prev : Option Char) (s : Str) (k : Nat) (r : Str)
    (h : mClose prev s = some (k, r)) : r.filter L = (s.take k).filter L := by
  unfold mClose at h
  dsimp only at h
  split at h
  · cases h
  · split at h
    · cases h
      rename_i h2
      rw [List.take_add, List.filter_append, filter_run hL.space]
      cases hd : s.drop (runLen isSpace s) with
      | nil => rw [hd] at h2; cases h2
      | cons a t => rw [hd] at h2; cases h2; rfl
    · cases h

theorem mHyphen_filter (hL : Kept L) (prev : Option Char) (s : Str) (k : Nat) (r : Str)
    (h : mHyphen isWord prev s = some (k, r)) : r.filter L = (s.take k).filter L := by
  unfold mHyphen at h
  dsimp only at h
  split at h
  · cases h
  · split at h
    · rename_i t hd
      split at h
      · cases h
      · split at h
        · cases h
          have := filter_run hL.space t
          rw [Nat.add_assoc, List.take_add, List.filter_append, filter_run hL.space, hd,
            Nat.add_comm 1, List.take_succ_cons]
          simp [List.filter_cons, this]
        · cases h
    · cases h

theorem mComma_filter (hL : Kept L) (prev : Option Char) (s : Str) (k : Nat) (r : Str)
    (h : mComma prev s = some (k, r)) : r.filter L = (s.take k).filter L := by
  unfold mComma at h
  dsimp only at h
  split at h
  · cases h
  · split at h
    · cases h
      rw [Nat.add_assoc, List.take_add, List.filter_append, filter_run hL.space, List.take_add,
        List.filter_append, filter_run hL.seps, filter_run hL.space]
      simp [hL.seps ',' rfl, hL.space ' ' rfl]
    · cases h

theorem mUnderscore_filter (hL : Kept L) (prev : Option Char) (s : Str) (k : Nat) (r : Str)
    (h : mUnderscore prev s = some (k, r)) : r.filter L = (s.take k).filter L := by
  unfold mUnderscore at h
  dsimp only at h
  split at h
  · cases h
  · cases h
    rw [Nat.add_assoc, List.take_add, List.filter_append, filter_run hL.space, List.take_add,
      List.filter_append, filter_run (by simpa using hL.under), filter_run hL.space]
    simp [hL.space ' ' rfl]

theorem mEmpty_filter (hL : Kept L) (prev : Option Char) (s : Str) (k : Nat) (r : Str)
    (h : mEmpty isWord prev s = some (k, r)) : r.filter L = (s.take k).filter L := by
  unfold mEmpty at h
  split at h
  · rename_i t
    split at h
    · cases h
    · dsimp only at h
      split at h
      · rename_i u hd
        split at h
        · cases h
          have h1 := filter_run hL.space t
          have h2 := filter_run hL.space u
          rw [Nat.add_assoc, Nat.add_assoc, Nat.add_comm 1, List.take_succ_cons,
            List.take_add, hd, Nat.add_comm 1, List.take_succ_cons]
          simp [List.filter_cons, h1, h2, hL.seps ',' rfl, hL.space ' ' rfl]
        · cases h
      · cases h
  · cases h

theorem findBangs_none {n : Nat} {prev : Option Char} {s : Str} (h : '!' ∉ s) :
    findBangs isWord n prev s = [] := by
  induction n generalizing prev s with
  | zero => rfl
  | succ n ih =>
    cases s with
    | nil => rfl
    | cons c cs =>
      simp only [findBangs]
      have : runLen (· == '!') ((c :: cs).drop
          (runLen (fun c => isWord c || isSpace c || c == '-') (c :: cs))) = 0 := by
        generalize hd : (c :: cs).drop _ = t
        cases t with
        | nil => rfl
        | cons a t =>
          have ha : a ∈ c :: cs := List.mem_of_mem_drop (by rw [hd]; simp)
          have : a ≠ '!' := fun e => h (e ▸ ha)
          simp [runLen, this]
      rw [if_neg (by simp [this])]
      exact ih fun hm => h (by simp [hm])

/-- The text before exclamation marks are looked at. -/
def tidied (isWord : Char → Bool) (s : Str) : Str :=
  reSub (mEmpty isWord) (reSub mUnderscore (reSub mComma (reSub (mHyphen isWord)
      (reSub mClose (reSub mOpen s)))))

theorem tidied_filter (hL : Kept L) (s : Str) : (tidied isWord s).filter L = s.filter L := by
  unfold tidied reSub
  rw [subN_filter (mEmpty_filter hL), subN_filter (mUnderscore_filter hL),
    subN_filter (mComma_filter hL), subN_filter (mHyphen_filter hL), subN_filter (mClose_filter hL),
    subN_filter (mOpen_filter hL)]

theorem cleanAdded_eq (weight : Nat → Str) (s : Str) :
    cleanAdded isWord weight s =
      let t := tidied isWord (stripP (fun c => !isWord c) (strip (s.map deBrace)))
      applyBangs weight (findBangs isWord t.length none t) t := rfl

/-- A rule that does not match anywhere changes nothing. -/
theorem subN_id {m : Option Char → Str → Option (Nat × Str)} {n : Nat} {prev : Option Char} {s : Str}
    (h : ∀ prev t, (∀ c ∈ t, c ∈ s) → m prev t = none) : subN m n prev s = s := by
  induction n generalizing prev s with
  | zero => rfl
  | succ n ih =>
    cases s with
    | nil => rfl
    | cons c cs =>
      simp only [subN, h prev (c :: cs) (fun _ hc => hc)]
      rw [ih fun prev t ht => h prev t fun c hc => by simp [ht c hc]]

theorem head_drop_mem {s : Str} {k : Nat} {c : Char} (h : (s.drop k).head? = some c) : c ∈ s := by
  cases hd : s.drop k with
  | nil => rw [hd] at h; cases h
  | cons a t =>
    rw [hd] at h
    cases h
    exact List.mem_of_mem_drop (by rw [hd]; simp)

theorem runLen_zero {p : Char → Bool} {s : Str} (h : ∀ c ∈ s, p c = false) : runLen p s = 0 := by
  cases s with
  | nil => rfl
  | cons a s => simp [runLen, h a (by simp)]

theorem tidied_id {s : Str} (h : ∀ c ∈ s, c ∉ c!"()-,;._") : tidied isWord s = s := by
  have ne : ∀ {t : Str} {a : Char}, (∀ c ∈ t, c ∈ s) → a ∈ c!"()-,;._" → a ∉ t :=
    fun ht ha hm => h _ (ht _ hm) ha
  unfold tidied reSub
  have h1 : reSub mOpen s = s := subN_id fun prev t ht => by
    unfold mOpen
    split
    · exact absurd (by simp) (ne (a := '(') ht (by decide))
    · rfl
  have h2 : reSub mClose s = s := subN_id fun prev t ht => by
    unfold mClose
    dsimp only
    split
    · rfl
    · rw [if_neg]
      intro hh
      exact ne (a := ')') ht (by decide) (head_drop_mem hh)
  have h3 : reSub (mHyphen isWord) s = s := subN_id fun prev t ht => by
    unfold mHyphen
    dsimp only
    split
    · rfl
    · split
      · rename_i u hd
        exact absurd (List.mem_of_mem_drop (by rw [hd]; simp)) (ne (a := '-') ht (by decide))
      · rfl
  have h4 : reSub mComma s = s := subN_id fun prev t ht => by
    unfold mComma
    dsimp only
    rw [if_pos]
    refine runLen_zero fun c hc => ?_
    have hc := List.mem_of_mem_drop hc
    have e1 : c ≠ ',' := fun e => ne (a := ',') ht (by decide) (e ▸ hc)
    have e2 : c ≠ ';' := fun e => ne (a := ';') ht (by decide) (e ▸ hc)
    have e3 : c ≠ '.' := fun e => ne (a := '.') ht (by decide) (e ▸ hc)
    simp [isListSep, e1, e2, e3]
  have h5 : reSub mUnderscore s = s := subN_id fun prev t ht => by
    unfold mUnderscore
    dsimp only
    rw [if_pos]
    have : runLen (· == '_') (t.drop (runLen isSpace t)) = 0 := by
      refine runLen_zero fun c hc => ?_
      have hc := List.mem_of_mem_drop hc
      have e1 : c ≠ '_' := fun e => ne (a := '_') ht (by decide) (e ▸ hc)
      simp [e1]
    simp [this]
  have h6 : reSub (mEmpty isWord) s = s := subN_id fun prev t ht => by
    unfold mEmpty
    split
    · exact absurd (by simp) (ne (a := ',') ht (by decide))
    · rfl
  unfold reSub at h1 h2 h3 h4 h5 h6
  rw [h1, h2, h3, h4, h5, h6]

theorem findSub_prefix {pat b : Str} : findSub pat (pat ++ b) = some ([], b) := by
  cases hs : pat ++ b with
  | nil =>
    obtain ⟨rfl, rfl⟩ := List.append_eq_nil_iff.1 hs
    rfl
  | cons c cs =>
    simp only [findSub]
    rw [← hs, if_pos (by simp [List.isPrefixOf_iff_prefix])]
    simp

theorem replaceN_none {pat new s : Str} {n : Nat} (h : ¬ Occurs pat s) : replaceN pat new n s = s := by
  cases n with
  | zero => rfl
  | succ n =>
    simp only [replaceN]
    cases hf : findSub pat s with
    | none => rfl
    | some p =>
      obtain ⟨h1, -⟩ := findSub_some (a := p.1) (b := p.2) (by rw [hf])
      exact absurd ⟨_, _, h1⟩ h

theorem dropWhile_append_stop {p : Char → Bool} {a : Str} {c : Char} {b : Str} (h : p c = false) :
    (a ++ c :: b).dropWhile p = a.dropWhile p ++ c :: b := by
  induction a with
  | nil => simp [h]
  | cons x a ih =>
    by_cases hx : p x
    · simp [hx, ih]
    · simp [hx]

theorem dropWhile_nil {p : Char → Bool} {a : Str} (h : ∀ c ∈ a, p c = true) : a.dropWhile p = [] := by
  induction a with
  | nil => rfl
  | cons x a ih => simp [h x (by simp), ih fun c hc => h c (by simp [hc])]

/-- Stripping stops at the first and at the last character outside the class. -/
theorem stripP_around {p : Char → Bool} {pre core post : Str} (hne : core ≠ [])
    (h1 : ∀ c, core.head? = some c → p c = false) (h2 : ∀ c, core.getLast? = some c → p c = false) :
    stripP p (pre ++ core ++ post) = pre.dropWhile p ++ core ++ rstripP p post := by
  unfold stripP lstripP
  have e1 : (pre ++ core ++ post).dropWhile p = pre.dropWhile p ++ core ++ post := by
    cases core with
    | nil => exact absurd rfl hne
    | cons c cs =>
      have := dropWhile_append_stop (p := p) (a := pre) (c := c) (b := cs ++ post) (h1 c rfl)
      simpa using this
  rw [e1]
  obtain ⟨cs, c, rfl⟩ : ∃ cs c, core = cs ++ [c] :=
    ⟨core.dropLast, core.getLast hne, (List.dropLast_append_getLast hne).symm⟩
  have hc := h2 c (by simp)
  have := dropWhile_append_stop (p := p) (a := post.reverse) (c := c)
    (b := cs.reverse ++ (pre.dropWhile p).reverse) hc
  unfold rstripP
  have e2 : (pre.dropWhile p ++ (cs ++ [c]) ++ post).reverse =
      post.reverse ++ c :: (cs.reverse ++ (pre.dropWhile p).reverse) := by simp
  rw [e2, this]
  simp

/-- The two strippings of the clean-up together remove everything up to the first and from the last
word character. -/
theorem strip_core {pre core post : Str} (hne : core ≠ [])
    (hsp : ∀ c, isSpace c = true → isWord c = false)
    (h1 : ∀ c, core.head? = some c → isWord c = true) (h2 : ∀ c, core.getLast? = some c → isWord c = true)
    (hpre : ∀ c ∈ pre, isWord c = false) (hpost : ∀ c ∈ post, isWord c = false) :
    stripP (fun c => !isWord c) (strip (pre ++ core ++ post)) = core := by
  have hs : ∀ c, isWord c = true → isSpace c = false := by
    intro c hc
    cases h : isSpace c with
    | false => rfl
    | true => rw [hsp c h] at hc; cases hc
  unfold strip
  rw [stripP_around hne (fun c hc => hs c (h1 c hc)) (fun c hc => hs c (h2 c hc)),
    stripP_around hne (fun c hc => by simp [h1 c hc]) (fun c hc => by simp [h2 c hc])]
  have e1 : (pre.dropWhile isSpace).dropWhile (fun c => !isWord c) = [] := by
    refine dropWhile_nil fun c hc => ?_
    simp [hpre c (List.dropWhile_subset _ hc)]
  have e2 : rstripP (fun c => !isWord c) (rstripP isSpace post) = [] := by
    unfold rstripP
    rw [List.reverse_eq_nil_iff]
    refine dropWhile_nil fun c hc => ?_
    have : c ∈ post := by
      have := List.mem_reverse.1 hc
      have := List.dropWhile_subset _ (List.mem_reverse.1 this)
      exact List.mem_reverse.1 this
    simp [hpost c this]
  rw [e1, e2]
  simp

theorem runLen_append {p : Char → Bool} {a b : Str} (ha : ∀ c ∈ a, p c = true)
    (hb : ∀ c, b.head? = some c → p c = false) : runLen p (a ++ b) = a.length := by
  induction a with
  | nil =>
    cases b with
    | nil => rfl
    | cons c b => simp [runLen, hb c rfl]
  | cons x a ih =>
    have := ih fun c hc => ha c (by simp [hc])
    unfold runLen at this ⊢
    simp [ha x (by simp), this]

/-- One phrase with exclamation marks in a text without others. -/
theorem bangs_once {phrase rest : Str} {n : Nat} (weight : Nat → Str) (hn : n ≠ 0)
    (hb : isWord '!' = false)
    (h1 : ∃ c, phrase.head? = some c ∧ isWord c = true)
    (h2 : ∀ c ∈ phrase, isWord c = true ∨ isSpace c = true ∨ c = '-') (h3 : '!' ∉ rest) :
    let s := phrase ++ List.replicate n '!' ++ rest
    applyBangs weight (findBangs isWord s.length none s) s =
      c!"(" ++ phrase ++ c!":" ++ weight n ++ c!")" ++ rest := by
  intro s
  obtain ⟨n, rfl⟩ : ∃ m, n = m + 1 := ⟨n - 1, by omega⟩
  obtain ⟨c, hc, hw⟩ := h1
  obtain ⟨cs, rfl⟩ : ∃ cs, phrase = c :: cs := by
    cases phrase with
    | nil => cases hc
    | cons a cs => cases hc; exact ⟨cs, rfl⟩
  have hs : s = c :: (cs ++ List.replicate (n + 1) '!' ++ rest) := by simp [s]
  have hk : runLen (fun c => isWord c || isSpace c || c == '-') s = (c :: cs).length := by
    have : s = (c :: cs) ++ (List.replicate (n + 1) '!' ++ rest) := by simp [s]
    rw [this]
    refine runLen_append ?_ ?_
    · intro d hd
      rcases h2 d hd with h | h | h <;> simp [h]
    · intro d hd
      simp [List.replicate_succ] at hd
      subst hd
      simp [hb]
      decide
  have hj : runLen (· == '!') (s.drop (c :: cs).length) = n + 1 := by
    have : s.drop (c :: cs).length = List.replicate (n + 1) '!' ++ rest := by simp [s]
    rw [this, runLen_append (a := List.replicate (n + 1) '!')]
    · simp
    · intro d hd
      simp [List.eq_of_mem_replicate hd]
    · intro d hd
      have : d ≠ '!' := by
        rintro rfl
        cases rest with
        | nil => cases hd
        | cons a r => cases hd; simp at h3
      simp [this]
  have hf : findBangs isWord s.length none s = [(c :: cs, n + 1)] := by
    rw [hs] at hk hj ⊢
    simp only [List.length_cons, findBangs]
    simp only [List.length_cons] at hk hj
    rw [hk, hj, if_pos (by simp [boundary, hw]), findBangs_none]
    · simp
    · have : (c :: (cs ++ List.replicate (n + 1) '!' ++ rest)).drop (cs.length + 1 + (n + 1)) = rest := by
        rw [← List.drop_drop, List.drop_succ_cons, List.append_assoc, List.drop_left,
          List.drop_left' (by simp)]
      rw [this]
      exact h3
  rw [hf]
  simp only [applyBangs]
  unfold replaceAll
  rw [if_neg (by simp)]
  have hlen : s.length = (cs ++ List.replicate (n + 1) '!' ++ rest).length + 1 := by rw [hs]; simp
  rw [hlen]
  simp only [replaceN]
  rw [show s = ((c :: cs) ++ List.replicate (n + 1) '!') ++ rest from rfl, findSub_prefix]
  simp only
  rw [replaceN_none]
  · simp
  · rintro ⟨a, b, hab⟩
    apply h3
    rw [hab]
    simp [List.replicate_succ]

/-! ## Neighbours -/

/-- `c` may be followed by the text `s`. -/
def headOk (R : Char → Char → Prop) (c : Char) (s : Str) : Prop := ∀ d, s.head? = some d → R c d

theorem chain_cons {R : Char → Char → Prop} {c : Char} {s : Str} (h1 : headOk R c s)
    (h2 : List.IsChain R s) : List.IsChain R (c :: s) := by
  cases s with
  | nil => simp
  | cons d s => exact List.IsChain.cons_cons (h1 d rfl) h2

theorem chain_append {R : Char → Char → Prop} {r s : Str} (h1 : List.IsChain R r)
    (h2 : List.IsChain R s) (h3 : ∀ l, r.getLast? = some l → headOk R l s) :
    List.IsChain R (r ++ s) := by
  rw [List.isChain_append]
  exact ⟨h1, h2, fun x hx y hy => h3 x hx y hy⟩

theorem subN_chain {R : Char → Char → Prop} {m : Option Char → Str → Option (Nat × Str)}
    (hm : ∀ prev s k r, m prev s = some (k, r) → List.IsChain R s →
      r ≠ [] ∧ (∀ p, headOk R p s → headOk R p r) ∧ List.IsChain R r ∧
        ∀ l, r.getLast? = some l → headOk R l (s.drop k))
    {n : Nat} {prev : Option Char} {s : Str} (hs : List.IsChain R s) :
    List.IsChain R (subN m n prev s) ∧ ∀ p, headOk R p s → headOk R p (subN m n prev s) := by
  induction n generalizing prev s with
  | zero => exact ⟨hs, fun p h => h⟩
  | succ n ih =>
    cases s with
    | nil => exact ⟨hs, fun p h => h⟩
    | cons c cs =>
      simp only [subN]
      split
      · rename_i k r hk
        obtain ⟨h1, h2, h3, h4⟩ := hm _ _ _ _ hk hs
        obtain ⟨h5, h6⟩ := ih (prev := (c :: cs)[k]?) (List.IsChain.drop hs (k + 1))
        refine ⟨chain_append h3 h5 fun l hl => h6 l (h4 l hl), fun p hp => ?_⟩
        cases r with
        | nil => exact absurd rfl h1
        | cons a r => exact fun d hd => h2 p hp d (by simpa using hd)
      · obtain ⟨h5, h6⟩ := ih (prev := some c) (List.IsChain.tail hs)
        refine ⟨chain_cons (h6 c fun d hd => ?_) h5, fun p hp => fun d hd => hp d (by simpa using hd)⟩
        cases cs with
        | nil => cases hd
        | cons e cs =>
          cases hd
          exact (List.isChain_cons_cons.1 hs).1

/-- No white space directly after an opening parenthesis. -/
def AfterOpen (a b : Char) : Prop := ¬ (a = '(' ∧ isSpace b = true)

/-- No white space directly before a closing parenthesis. -/
def BeforeClose (a b : Char) : Prop := ¬ (isSpace a = true ∧ b = ')')

theorem runLen_drop_head {p : Char → Bool} {s : Str} {c : Char}
    (h : (s.drop (runLen p s)).head? = some c) : p c = false := by
  induction s with
  | nil => cases h
  | cons a s ih =>
    by_cases ha : p a
    · have : runLen p (a :: s) = runLen p s + 1 := by simp [runLen, ha]
      rw [this, List.drop_succ_cons] at h
      exact ih h
    · have : runLen p (a :: s) = 0 := by simp [runLen, ha]
      rw [this] at h
      cases h
      simpa using ha

theorem runLen_head {p : Char → Bool} {s : Str} (h : runLen p s ≠ 0) : ∃ c, s.head? = some c ∧ p c = true := by
  cases s with
  | nil => exact absurd rfl h
  | cons c s =>
    refine ⟨c, rfl, ?_⟩
    by_cases hc : p c
    · exact hc
    · exact absurd (by simp [runLen, hc]) h

theorem mOpen_chain {n : Nat} {prev : Option Char} {s : Str} (hn : s.length ≤ n) :
    List.IsChain AfterOpen (subN mOpen n prev s) ∧
      ∀ p, headOk AfterOpen p s → headOk AfterOpen p (subN mOpen n prev s) := by
  induction n generalizing prev s with
  | zero =>
    have : s = [] := List.length_eq_zero_iff.1 (by omega)
    subst this
    exact ⟨by simp [subN], fun p h => h⟩
  | succ n ih =>
    cases s with
    | nil => exact ⟨by simp [subN], fun p h => h⟩
    | cons c cs =>
      simp only [List.length_cons] at hn
      simp only [subN]
      split
      · rename_i k r hk
        unfold mOpen at hk
        split at hk
        · rename_i t heq
          cases heq
          split at hk
          · cases hk
          · obtain ⟨rfl, rfl⟩ : k = runLen isSpace cs ∧ c!"(" = r := by
              simp only [Option.some.injEq, Prod.mk.injEq] at hk
              exact ⟨by omega, hk.2⟩
            obtain ⟨h5, h6⟩ := ih (prev := ('(' :: cs)[runLen isSpace cs]?)
              (s := ('(' :: cs).drop (runLen isSpace cs + 1)) (by simp; omega)
            refine ⟨chain_append (by simp) h5 fun l hl => h6 l ?_, fun p hp => fun d hd => hp d (by simpa using hd)⟩
            intro d hd
            rintro ⟨-, hsp⟩
            rw [List.drop_succ_cons] at hd
            rw [runLen_drop_head hd] at hsp
            cases hsp
        · cases hk
      · rename_i hno
        obtain ⟨h5, h6⟩ := ih (prev := some c) (s := cs) (by omega)
        refine ⟨chain_cons (h6 c fun d hd => ?_) h5, fun p hp => fun d hd => hp d (by simpa using hd)⟩
        rintro ⟨rfl, hsp⟩
        have hr : runLen isSpace cs ≠ 0 := by
          cases cs with
          | nil => cases hd
          | cons e cs => cases hd; simp [runLen, hsp]
        refine hno (runLen isSpace cs) c!"(" ?_
        simp [mOpen, hr, Nat.add_comm]

theorem mClose_chain {n : Nat} {prev : Option Char} {s : Str} (hn : s.length ≤ n) :
    List.IsChain BeforeClose (subN mClose n prev s) ∧
      ∀ p, (isSpace p = true → (s.drop (runLen isSpace s)).head? ≠ some ')') →
        headOk BeforeClose p (subN mClose n prev s) := by
  induction n generalizing prev s with
  | zero =>
    have : s = [] := List.length_eq_zero_iff.1 (by omega)
    subst this
    exact ⟨by simp [subN], fun p h => by simp [headOk, subN]⟩
  | succ n ih =>
    cases s with
    | nil => exact ⟨by simp [subN], fun p h => by simp [headOk, subN]⟩
    | cons c cs =>
      simp only [List.length_cons] at hn
      simp only [subN]
      split
      · rename_i k r hk
        unfold mClose at hk
        dsimp only at hk
        split at hk
        · cases hk
        · split at hk
          · rename_i hne hh
            obtain ⟨rfl, rfl⟩ : k = runLen isSpace (c :: cs) ∧ c!")" = r := by
              simp only [Option.some.injEq, Prod.mk.injEq] at hk
              exact ⟨by omega, hk.2⟩
            obtain ⟨h5, h6⟩ := ih (prev := (c :: cs)[runLen isSpace (c :: cs)]?)
              (s := (c :: cs).drop (runLen isSpace (c :: cs) + 1)) (by simp; omega)
            refine ⟨chain_append (by simp) h5 fun l hl => h6 l ?_, fun p hp => fun d hd => ?_⟩
            · cases hl
              intro h
              exact absurd h (by decide)
            · rintro ⟨hsp, -⟩
              exact hp hsp hh
          · cases hk
      · rename_i hno
        obtain ⟨h5, h6⟩ := ih (prev := some c) (s := cs) (by omega)
        refine ⟨chain_cons (h6 c fun hsp => ?_) h5, fun p hp => fun d hd => ?_⟩
        · have hr : runLen isSpace (c :: cs) = runLen isSpace cs + 1 := by simp [runLen, hsp]
          intro hh
          refine hno (runLen isSpace (c :: cs)) c!")" ?_
          unfold mClose
          dsimp only
          rw [if_neg (by omega), if_pos]
          rw [hr, List.drop_succ_cons, hh]
        · cases hd
          rintro ⟨hsp, rfl⟩
          exact hp hsp rfl

/-- The rules between the parentheses and the exclamation marks. -/
theorem tidied_chains {s : Str} (hcl : isWord ')' = false) :
    List.IsChain AfterOpen (tidied isWord s) ∧ List.IsChain BeforeClose (tidied isWord s) := by
  unfold tidied reSub
  have o1 := (mOpen_chain (s := s) (n := s.length) (prev := none) (Nat.le_refl _)).1
  have one : ∀ (a b : Char), a ≠ '(' → AfterOpen a b := fun a b h h' => h h'.1
  have two : ∀ (a b : Char), isSpace b = false → AfterOpen a b := by
    rintro a b h ⟨-, h'⟩
    rw [h] at h'
    cases h'
  have three : ∀ (a b : Char), b ≠ ')' → BeforeClose a b := fun a b h h' => h h'.2
  have four : ∀ (a b : Char), isSpace a = false → BeforeClose a b := by
    rintro a b h ⟨h', -⟩
    rw [h] at h'
    cases h'
  generalize subN mOpen s.length none s = s1 at o1
  have o2 : List.IsChain AfterOpen (subN mClose s1.length none s1) := by
    refine (subN_chain ?_ o1).1
    intro prev t k r hm _
    unfold mClose at hm
    dsimp only at hm
    split at hm
    · cases hm
    · split at hm
      · cases hm
        refine ⟨by simp, fun p _ d hd => ?_, by simp, fun l hl d _ => ?_⟩
        · cases hd; exact two _ _ (by decide)
        · cases hl; exact one _ _ (by decide)
      · cases hm
  have c2 := (mClose_chain (s := s1) (n := s1.length) (prev := none) (Nat.le_refl _)).1
  generalize subN mClose s1.length none s1 = s2 at o2 c2
  have hy : ∀ prev t k r, mHyphen isWord prev t = some (k, r) → r = c!"-" := by
    intro prev t k r hm
    unfold mHyphen at hm
    dsimp only at hm
    split at hm
    · cases hm
    · split at hm
      · split at hm
        · cases hm
        · split at hm
          · cases hm; rfl
          · cases hm
      · cases hm
  have o3 : List.IsChain AfterOpen (subN (mHyphen isWord) s2.length none s2) := by
    refine (subN_chain ?_ o2).1
    intro prev t k r hm _
    cases hy _ _ _ _ hm
    refine ⟨by simp, fun p _ d hd => ?_, by simp, fun l hl d _ => ?_⟩
    · cases hd; exact two _ _ (by decide)
    · cases hl; exact one _ _ (by decide)
  have c3 : List.IsChain BeforeClose (subN (mHyphen isWord) s2.length none s2) := by
    refine (subN_chain ?_ c2).1
    intro prev t k r hm _
    cases hy _ _ _ _ hm
    refine ⟨by simp, fun p _ d hd => ?_, by simp, fun l hl d _ => ?_⟩
    · cases hd; exact three _ _ (by decide)
    · cases hl; exact four _ _ (by decide)
  generalize subN (mHyphen isWord) s2.length none s2 = s3 at o3 c3
  have hc : ∀ prev t k r, mComma prev t = some (k, r) →
      r = c!", " ∧ ∀ d, (t.drop k).head? = some d → isPhraseStart d = true := by
    intro prev t k r hm
    unfold mComma at hm
    dsimp only at hm
    split at hm
    · cases hm
    · split at hm
      · rename_i hh
        cases hm
        refine ⟨rfl, fun d hd => ?_⟩
        rw [List.drop_drop, List.drop_drop, ← Nat.add_assoc] at hh
        rw [hd] at hh
        simpa using hh
      · cases hm
  have o4 : List.IsChain AfterOpen (subN mComma s3.length none s3) := by
    refine (subN_chain ?_ o3).1
    intro prev t k r hm _
    cases (hc _ _ _ _ hm).1
    refine ⟨by simp, fun p _ d hd => ?_, ?_, fun l hl d _ => ?_⟩
    · cases hd; exact two _ _ (by decide)
    · exact List.IsChain.cons_cons (one _ _ (by decide)) (by simp)
    · cases hl; exact one _ _ (by decide)
  have c4 : List.IsChain BeforeClose (subN mComma s3.length none s3) := by
    refine (subN_chain ?_ c3).1
    intro prev t k r hm _
    obtain ⟨rfl, hd'⟩ := hc _ _ _ _ hm
    refine ⟨by simp, fun p _ d hd => ?_, ?_, fun l hl d hd => ?_⟩
    · cases hd; exact three _ _ (by decide)
    · exact List.IsChain.cons_cons (three _ _ (by decide)) (by simp)
    · refine three _ _ ?_
      rintro rfl
      exact absurd (hd' _ hd) (by decide)
  generalize subN mComma s3.length none s3 = s4 at o4 c4
  have o5 : List.IsChain AfterOpen (subN mUnderscore s4.length none s4) := by
    refine (subN_chain ?_ o4).1
    intro prev t k r hm _
    unfold mUnderscore at hm
    dsimp only at hm
    split at hm
    · cases hm
    · rename_i hne
      cases hm
      refine ⟨by simp, fun p hp d hd => ?_, by simp, fun l hl d _ => ?_⟩
      · cases hd
        obtain ⟨c, h1, h2⟩ := runLen_head (p := isSpace) (s := t) (by
          intro h; simp [h] at hne)
        rintro ⟨rfl, -⟩
        exact hp c h1 ⟨rfl, h2⟩
      · cases hl; exact one _ _ (by decide)
  have c5 : List.IsChain BeforeClose (subN mUnderscore s4.length none s4) := by
    refine (subN_chain ?_ c4).1
    intro prev t k r hm ht
    unfold mUnderscore at hm
    dsimp only at hm
    split at hm
    · cases hm
    · rename_i hne
      cases hm
      refine ⟨by simp, fun p hp d hd => ?_, by simp, fun l hl d hd => ?_⟩
      · cases hd; exact three _ _ (by decide)
      · generalize hu : (t.drop (runLen isSpace t)).drop (runLen (· == '_') (t.drop (runLen isSpace t))) = u
          at hne hd
        have hi : runLen isSpace u ≠ 0 := by intro h; simp [h] at hne
        have hcu : List.IsChain BeforeClose u := by
          rw [← hu]
          exact (ht.drop _).drop _
        rw [← List.drop_drop, ← List.drop_drop, hu] at hd
        clear hne hu
        rintro ⟨-, rfl⟩
        induction u with
        | nil => cases hd
        | cons a u ihu =>
          have ha : isSpace a = true := by
            obtain ⟨x, hx, hx'⟩ := runLen_head hi
            cases hx
            exact hx'
          have e : runLen isSpace (a :: u) = runLen isSpace u + 1 := by simp [runLen, ha]
          rw [e, List.drop_succ_cons] at hd
          by_cases h0 : runLen isSpace u = 0
          · rw [h0] at hd
            cases u with
            | nil => cases hd
            | cons b u =>
              cases hd
              exact (List.isChain_cons_cons.1 hcu).1 ⟨ha, rfl⟩
          · exact ihu h0 hcu.tail hd
  generalize subN mUnderscore s4.length none s4 = s5 at o5 c5
  have he : ∀ prev t k r, mEmpty isWord prev t = some (k, r) →
      r = c!", " ∧ ∀ d, (t.drop k).head? = some d → isWord d = true := by
    intro prev t k r hm
    unfold mEmpty at hm
    split at hm
    · split at hm
      · cases hm
      · dsimp only at hm
        split at hm
        · rename_i v _ u hu
          split at hm
          · rename_i hh
            cases hm
            refine ⟨rfl, fun d hd => ?_⟩
            have e1 : ∀ (x : Str) (a b : Nat), (',' :: x).drop (1 + a + 1 + b) = ((x.drop a).drop 1).drop b := by
              intro x a b
              rw [List.drop_drop, List.drop_drop, show 1 + a + 1 + b = (a + (1 + b)) + 1 by omega,
                List.drop_succ_cons]
            rw [e1, hu] at hd
            simp only [List.drop_succ_cons, List.drop_zero] at hd
            rw [hd] at hh
            simpa using hh
          · cases hm
        · cases hm
    · cases hm
  constructor
  · refine (subN_chain ?_ o5).1
    intro prev t k r hm _
    cases (he _ _ _ _ hm).1
    refine ⟨by simp, fun p _ d hd => ?_, ?_, fun l hl d _ => ?_⟩
    · cases hd; exact two _ _ (by decide)
    · exact List.IsChain.cons_cons (one _ _ (by decide)) (by simp)
    · cases hl; exact one _ _ (by decide)
  · refine (subN_chain ?_ c5).1
    intro prev t k r hm _
    obtain ⟨rfl, hd'⟩ := he _ _ _ _ hm
    refine ⟨by simp, fun p _ d hd => ?_, ?_, fun l hl d hd => ?_⟩
    · cases hd; exact three _ _ (by decide)
    · exact List.IsChain.cons_cons (three _ _ (by decide)) (by simp)
    · refine three _ _ ?_
      rintro rfl
      rw [hd' _ hd] at hcl
      cases hcl

end Verif
