import Verif.Model.Translate
import Verif.Proofs.Names
/-!
# Proofs about bracket expressions
-/

namespace Verif

/-- An item of a bracket expression. -/
inductive Itm where
  | one (c : Char)
  | rng (x y : Char)

namespace Itm

def range : Itm → GRange
  | .one c => (c, c)
  | .rng x y => (x, y)

def good : Itm → Bool
  | .one _ => true
  | .rng x y => !decide (y.toNat < x.toNat)

end Itm

/-- The items of the inside of a bracket expression. -/
def itms : Str → List Itm
  | x :: '-' :: y :: rest => .rng x y :: itms rest
  | x :: rest => .one x :: itms rest
  | [] => []

theorem itms_one {x : Char} {s : Str} (h : ∀ y r, s ≠ '-' :: y :: r) : itms (x :: s) = .one x :: itms s := by
  rw [itms]
  intro y r e
  exact h y r e

theorem bracketItems_one {x : Char} {s : Str} (h : ∀ y r, s ≠ '-' :: y :: r) : bracketItems (x :: s) = (x, x) :: bracketItems s := by
  rw [bracketItems]
  intro y r e
  exact h y r e

theorem itms_induction {P : Str → Prop} (nil : P []) (rng : ∀ x y r, P r → P (x :: '-' :: y :: r))
    (one : ∀ x s, (∀ y r, s ≠ '-' :: y :: r) → P s → P (x :: s)) : ∀ s, P s
  | [] => nil
  | [x] => one x [] (by simp) nil
  | [x, c] => one x [c] (by simp) (one c [] (by simp) nil)
  | x :: c :: y :: r => by
    by_cases h : c = '-'
    · subst h; exact rng x y r (itms_induction nil rng one r)
    · refine one x (c :: y :: r) ?_ (itms_induction nil rng one (c :: y :: r))
      intro y' r' e
      cases e
      exact h rfl

theorem bracketItems_itms (s : Str) : bracketItems s = (itms s).map Itm.range := by
  induction s using itms_induction with
  | nil => rfl
  | rng x y r ih => simp only [bracketItems, itms, List.map_cons, ih]; rfl
  | one x s h ih => rw [itms_one h, bracketItems_one h, List.map_cons, ih]; rfl

theorem itms_plain {s : Str} (h : '-' ∉ s) : itms s = s.map .one := by
  induction s with
  | nil => rfl
  | cons x s ih =>
    rw [itms_one (fun y r e => h (by rw [e]; simp)), ih fun hm => h (List.mem_cons_of_mem _ hm)]
    rfl

/-! ### Chunks -/

/-- A character in front of the first chunk. -/
def consFirst (c : Char) : List Str → List Str
  | [] => [[c]]
  | x :: xs => (c :: x) :: xs

/-- The chunks of items. -/
def toChunks : List Itm → List Str
  | [] => [[]]
  | .one c :: l => consFirst c (toChunks l)
  | .rng x y :: l => [x] :: consFirst y (toChunks l)

/-- A text in front of the first chunk. -/
def before (acc : Str) : List Str → List Str
  | [] => [acc]
  | x :: xs => (acc ++ x) :: xs

theorem toChunks_ne (l : List Itm) : toChunks l ≠ [] := by
  cases l with
  | nil => simp [toChunks]
  | cons i l =>
    cases i with
    | one c => simp only [toChunks]; unfold consFirst; split <;> simp
    | rng x y => simp [toChunks]

theorem toChunks_first (l : List Itm) {h : Str} {t : List Str} (e : toChunks l = h :: t) (hh : h = []) : t = [] := by
  subst hh
  cases l with
  | nil => simp [toChunks] at e; exact e
  | cons i l =>
    cases i with
    | one c =>
      simp only [toChunks] at e
      unfold consFirst at e
      split at e <;> cases e
    | rng x y => simp [toChunks] at e

theorem before_consFirst (acc : Str) (c : Char) {l : List Str} : before acc (consFirst c l) = before (acc ++ [c]) l := by
  cases l <;> simp [before, consFirst]

theorem chunkScan_shape (n : Nat) (acc s : Str) : ∃ h t, chunkScan n acc s = (acc ++ h) :: t := by
  induction s generalizing n acc with
  | nil => cases n <;> exact ⟨[], [], by simp [chunkScan]⟩
  | cons c s ih =>
    cases n with
    | zero =>
      by_cases hc : c = '-'
      · subst hc; exact ⟨[], chunkScan 2 [] s, by simp [chunkScan]⟩
      · obtain ⟨h, t, e⟩ := ih 0 (acc ++ [c])
        exact ⟨c :: h, t, by simp [chunkScan, hc, e]⟩
    | succ n =>
      obtain ⟨h, t, e⟩ := ih n (acc ++ [c])
      exact ⟨c :: h, t, by simp [chunkScan, e]⟩

theorem closeChunks_cons {x : Str} {l : List Str} (h1 : l ≠ []) (h2 : l ≠ [[]]) : closeChunks (x :: l) = x :: closeChunks l := by
  rw [closeChunks]
  · exact h1
  · exact h2

theorem chunks_itms (s : Str) : ∀ acc, closeChunks (chunkScan 1 acc s) = before acc (toChunks (itms s)) := by
  induction s using itms_induction with
  | nil => intro acc; simp [chunkScan, closeChunks, itms, toChunks, before]
  | rng x y r ih =>
    intro acc
    have e : chunkScan 1 acc (x :: '-' :: y :: r) = (acc ++ [x]) :: chunkScan 1 [y] r := by simp [chunkScan]
    obtain ⟨h, t, ht⟩ := chunkScan_shape 1 [y] r
    rw [e, closeChunks_cons (by rw [ht]; simp) (by rw [ht]; simp), ih]
    simp only [itms, toChunks, before]
    obtain ⟨q, qs, hq⟩ := List.exists_cons_of_ne_nil (toChunks_ne (itms r))
    rw [hq]
    rfl
  | one x s h ih =>
    intro acc
    rw [itms_one h]
    simp only [toChunks]
    rw [before_consFirst]
    cases s with
    | nil => simp [chunkScan, closeChunks, itms, toChunks, before]
    | cons c s =>
      by_cases hc : c = '-'
      · subst hc
        cases s with
        | nil => simp [chunkScan, closeChunks, itms, toChunks, before, consFirst]
        | cons y r => exact absurd rfl (h y r)
      · rw [← ih]
        simp [chunkScan, hc]

/-- All items of the inside, an initial `!` included. -/
def bodyItms : Str → List Itm
  | '!' :: rest => .one '!' :: itms rest
  | s => itms s

theorem toChunks_plain (s : Str) : toChunks (s.map .one) = [s] := by
  induction s with
  | nil => rfl
  | cons c s ih => simp [toChunks, ih, consFirst]

theorem bracketChunks_itms (body : Str) : bracketChunks body = toChunks (bodyItms body) := by
  have hcase : (∃ rest, body = '!' :: rest) ∨ (startsWith body ['!'] = false ∧ bodyItms body = itms body) := by
    cases body with
    | nil => exact .inr ⟨rfl, rfl⟩
    | cons c s =>
      by_cases hc : c = '!'
      · exact .inl ⟨s, by rw [hc]⟩
      · refine .inr ⟨by
          have : ('!' == c) = false := by simpa using Ne.symm hc
          simp [startsWith, List.isPrefixOf, this], ?_⟩
        unfold bodyItms
        split
        · rename_i e; cases e; exact absurd rfl hc
        · rfl
  rcases hcase with ⟨rest, rfl⟩ | ⟨h1, h2⟩
  · unfold bracketChunks
    split
    · rw [if_pos (by simp [startsWith])]
      rw [show chunkScan 2 [] ('!' :: rest) = chunkScan 1 ['!'] rest by simp [chunkScan], chunks_itms]
      simp only [bodyItms, toChunks]
      cases toChunks (itms rest) <;> simp [before, consFirst]
    · rename_i h
      simp only [bodyItms]
      rw [itms_plain fun hm => h (List.mem_cons_of_mem _ hm)]
      exact (toChunks_plain ('!' :: rest)).symm
  · rw [h2]
    unfold bracketChunks
    split
    · rw [if_neg (by rw [h1]; simp), chunks_itms]
      obtain ⟨q, qs, hq⟩ := List.exists_cons_of_ne_nil (toChunks_ne (itms body))
      rw [hq]
      rfl
    · rename_i h
      rw [itms_plain h, toChunks_plain]

theorem mergeChunks_ne {l : List Str} (h : l ≠ []) : mergeChunks l ≠ [] := by
  cases l with
  | nil => exact absurd rfl h
  | cons x l =>
    simp only [mergeChunks, List.foldr_cons]
    unfold joinChunk
    repeat' split
    all_goals simp

theorem mergeChunks_cons (c : Char) (h : Str) (t : List Str) (hs : h = [] → t = []) :
    mergeChunks ((c :: h) :: t) = consFirst c (mergeChunks (h :: t)) := by
  by_cases ht : t = []
  · subst ht; rfl
  · have hh : h ≠ [] := fun e => ht (hs e)
    obtain ⟨y, ys, hy⟩ := List.exists_cons_of_ne_nil (mergeChunks_ne ht)
    have e : ∀ x : Str, mergeChunks (x :: t) = joinChunk x (y :: ys) := fun x => by
      rw [← hy]; rfl
    rw [e, e]
    obtain ⟨a, ha⟩ : ∃ a, h.getLast? = some a := ⟨_, List.getLast?_eq_some_getLast hh⟩
    have ha' : (c :: h).getLast? = some a := by rw [List.getLast?_cons_of_ne_nil hh, ha]
    have hd : (c :: h).dropLast = c :: h.dropLast := List.dropLast_cons_of_ne_nil hh
    simp only [joinChunk, ha, ha', hd]
    cases y.head? with
    | none => rfl
    | some b => simp only; split <;> rfl

theorem mergeChunks_toChunks (l : List Itm) : mergeChunks (toChunks l) = toChunks (l.filter Itm.good) := by
  induction l with
  | nil => rfl
  | cons i l ih =>
    obtain ⟨h, t, e⟩ := List.exists_cons_of_ne_nil (toChunks_ne l)
    have hs := toChunks_first l e
    rw [e] at ih
    cases i with
    | one c =>
      simp only [List.filter_cons, Itm.good, if_true, toChunks, e]
      rw [show consFirst c (h :: t) = (c :: h) :: t from rfl, mergeChunks_cons c h t hs, ih]
    | rng x y =>
      simp only [toChunks, e]
      have e1 : mergeChunks ([x] :: consFirst y (h :: t)) = joinChunk [x] (consFirst y (toChunks (l.filter Itm.good))) := by
        rw [← ih, ← mergeChunks_cons y h t hs]
        rfl
      rw [e1]
      obtain ⟨h', t', e'⟩ := List.exists_cons_of_ne_nil (toChunks_ne (l.filter Itm.good))
      rw [e']
      simp only [consFirst, joinChunk, List.getLast?_singleton, List.head?_cons, List.dropLast_singleton, List.tail_cons, List.nil_append,
        List.filter_cons, Itm.good]
      by_cases hlt : y.toNat < x.toNat
      · simp [hlt, e']
      · simp [hlt, toChunks, e', consFirst]

/-! ### Text -/

/-- A character of a class. -/
def escOne (c : Char) : Str := if c ∈ ['\\', '-', '&', '~', '|'] then ['\\', c] else [c]

/-- The text of items. -/
def textOf : List Itm → Str
  | [] => []
  | .one c :: l => escOne c ++ textOf l
  | .rng x y :: l => escOne x ++ '-' :: (escOne y ++ textOf l)

theorem escClass_cons (c : Char) (s : Str) : escClass (c :: s) = escOne c ++ escClass s := rfl

theorem pyJoin_consFirst (c : Char) (l : List Str) (h : l ≠ []) :
    pyJoin ['-'] ((consFirst c l).map escClass) = escOne c ++ pyJoin ['-'] (l.map escClass) := by
  obtain ⟨x, xs, rfl⟩ := List.exists_cons_of_ne_nil h
  cases xs with
  | nil => simp [consFirst, pyJoin, escClass_cons]
  | cons y ys => simp [consFirst, pyJoin, escClass_cons]

theorem textOf_chunks (l : List Itm) : pyJoin ['-'] ((toChunks l).map escClass) = textOf l := by
  induction l with
  | nil => rfl
  | cons i l ih =>
    cases i with
    | one c => simp only [toChunks, textOf]; rw [pyJoin_consFirst c _ (toChunks_ne l), ih]
    | rng x y =>
      simp only [toChunks, textOf, List.map_cons]
      have : consFirst y (toChunks l) ≠ [] := by unfold consFirst; split <;> simp
      obtain ⟨q, qs, e⟩ := List.exists_cons_of_ne_nil this
      have e2 := pyJoin_consFirst y _ (toChunks_ne l)
      rw [e] at e2 ⊢
      rw [ih] at e2
      simp only [List.map_cons] at e2 ⊢
      rw [← e2]
      simp [pyJoin, escClass, escOne]

theorem classStuff_eq (body : Str) : classStuff body = textOf ((bodyItms body).filter Itm.good) := by
  rw [classStuff, bracketChunks_itms, mergeChunks_toChunks, textOf_chunks]

/-! ### Reading the class -/

/-- Whether the character is escaped. -/
def escaped (c : Char) : Bool := decide (c ∈ ['\\', '-', '&', '~', '|'])

theorem sreGet_esc (c : Char) (s : Str) : sreGet (escOne c ++ s) = some (c, escaped c, s) := by
  unfold escOne escaped
  split
  · rename_i h; simp [sreGet, h]
  · rename_i h
    have hc : c ≠ '\\' := by rintro rfl; exact h (by simp)
    simp only [h, decide_false, List.cons_append, List.nil_append]
    cases s with
    | nil => simp [sreGet]
    | cons d s =>
      rw [sreGet]
      intro c' s' h1
      exact absurd h1 (by intro e; exact hc e)

theorem esc_not_hyphen (c : Char) (s s' : Str) : escOne c ++ s ≠ '-' :: s' := by
  unfold escOne
  split
  · simp
  · rename_i h
    intro e
    simp only [List.cons_append, List.nil_append, List.cons.injEq] at e
    exact h (by rw [e.1]; simp)

/-- No character of the items is `]`. -/
def Itm.Open : Itm → Prop
  | .one c => c ≠ ']'
  | .rng x y => x ≠ ']' ∧ y ≠ ']'

/-- No range ends with `]`. -/
def Itm.OpenEnd : Itm → Prop
  | .one _ => True
  | .rng _ y => y ≠ ']'

theorem text_not_hyphen (l : List Itm) (more s' : Str) : textOf l ++ ']' :: more ≠ '-' :: s' := by
  cases l with
  | nil => simp [textOf]
  | cons i l =>
    cases i with
    | one c => simp only [textOf, List.append_assoc]; exact esc_not_hyphen c _ _
    | rng x y => simp only [textOf, List.append_assoc]; exact esc_not_hyphen x _ _

theorem escOne_length (c : Char) : 0 < (escOne c).length := by unfold escOne; split <;> simp

theorem sreClass_one (n : Nat) (first : Bool) (c : Char) (s : Str) (hc : c = ']' → first = true) (hs : ∀ s', s ≠ '-' :: s') :
    sreClass (n + 1) first (escOne c ++ s) = (sreClass n false s).map fun p => ((c, c) :: p.1, p.2) := by
  rw [sreClass, sreGet_esc]
  have h : (c == ']' && !escaped c && !first) = false := by
    by_cases h : c = ']'
    · simp [hc h]
    · simp [h]
  simp only [h, Bool.false_eq_true, if_false]

theorem sreClass_rng (n : Nat) (first : Bool) (x y : Char) (s : Str) (hx : x = ']' → first = true) (hy : y ≠ ']')
    (hxy : x.toNat ≤ y.toNat) : sreClass (n + 1) first (escOne x ++ '-' :: (escOne y ++ s)) =
      (sreClass n false s).map fun p => ((x, y) :: p.1, p.2) := by
  rw [sreClass, sreGet_esc]
  have h : (x == ']' && !escaped x && !first) = false := by
    by_cases h : x = ']'
    · simp [hx h]
    · simp [h]
  simp only [h, Bool.false_eq_true, if_false, sreGet_esc]
  have h2 : (y == ']' && !escaped y) = false := by simp [hy]
  simp only [h2, Bool.false_eq_true, if_false]
  rw [if_neg (by omega)]

theorem sreClass_items (l : List Itm) (hg : ∀ i ∈ l, i.good = true) (ho : ∀ i ∈ l, i.Open) (more : Str) (n : Nat)
    (hn : (textOf l ++ ']' :: more).length ≤ n) : sreClass n false (textOf l ++ ']' :: more) = some (l.map Itm.range, more) := by
  induction l generalizing n with
  | nil =>
    cases n with
    | zero => simp at hn
    | succ n =>
      have : sreGet (']' :: more) = some (']', false, more) := by
        cases more <;> simp [sreGet]
      simp [textOf, sreClass, this]
  | cons i l ih =>
    obtain ⟨g1, g2⟩ := List.forall_mem_cons.1 hg
    obtain ⟨o1, o2⟩ := List.forall_mem_cons.1 ho
    have ih := ih g2 o2
    cases n with
    | zero => simp at hn
    | succ n =>
      cases i with
      | one c =>
        have hl := escOne_length c
        simp only [textOf, List.append_assoc, List.length_append] at hn ⊢
        rw [sreClass_one n false c _ (fun e => absurd e o1) (text_not_hyphen l more), ih n (by simp only [List.length_append]; omega)]
        rfl
      | rng x y =>
        have hl := escOne_length x
        simp only [textOf, List.append_assoc, List.length_append, List.cons_append, List.length_cons] at hn ⊢
        rw [sreClass_rng n false x y _ (fun e => absurd e o1.1) o1.2 (by simpa [Itm.good] using g1),
          ih n (by simp only [List.length_append, List.length_cons]; omega)]
        rfl

theorem sreClass_first (i : Itm) (l : List Itm) (hg : ∀ j ∈ i :: l, j.good = true) (hi : i.OpenEnd) (ho : ∀ j ∈ l, j.Open) (more : Str)
    (n : Nat) (hn : (textOf (i :: l) ++ ']' :: more).length ≤ n) :
    sreClass n true (textOf (i :: l) ++ ']' :: more) = some ((i :: l).map Itm.range, more) := by
  obtain ⟨g1, g2⟩ := List.forall_mem_cons.1 hg
  cases n with
  | zero => simp at hn
  | succ n =>
    cases i with
    | one c =>
      have hl := escOne_length c
      simp only [textOf, List.append_assoc, List.length_append] at hn ⊢
      rw [sreClass_one n true c _ (fun _ => rfl) (text_not_hyphen l more), sreClass_items l g2 ho more n (by simp only [List.length_append]; omega)]
      rfl
    | rng x y =>
      have hl := escOne_length x
      simp only [textOf, List.append_assoc, List.length_append, List.cons_append, List.length_cons] at hn ⊢
      rw [sreClass_rng n true x y _ (fun _ => rfl) hi (by simpa [Itm.good] using g1),
        sreClass_items l g2 ho more n (by simp only [List.length_append, List.length_cons]; omega)]
      rfl

theorem sreClass_hyphen (n : Nat) (y : Char) (s : Str) :
    sreClass (n + 1) true ('-' :: (escOne y ++ s)) = (sreClass n false (escOne y ++ s)).map fun p => (('-', '-') :: p.1, p.2) := by
  have h : sreGet ('-' :: (escOne y ++ s)) = some ('-', false, escOne y ++ s) := by
    unfold sreGet
    split
    · simp_all
    · rename_i h; cases h
    · rename_i h; cases h; rfl
  rw [sreClass, h]
  simp only [Bool.not_false, Bool.and_true, Bool.not_true, Bool.and_false, Bool.false_eq_true, if_false]
  split
  · rename_i s2 h; exact absurd h (esc_not_hyphen y s s2)
  · rfl

theorem sreClass_escaped (n : Nat) (f : Bool) (c : Char) (s : Str) (h1 : c ≠ '\\') (h2 : c ≠ ']') :
    sreClass (n + 1) f ('\\' :: c :: s) = sreClass (n + 1) f (c :: s) := by
  have e1 : sreGet ('\\' :: c :: s) = some (c, true, s) := rfl
  have e2 : sreGet (c :: s) = some (c, false, s) := by
    unfold sreGet
    split
    · simp_all
    · rename_i h; cases h; exact absurd rfl h1
    · rename_i h; cases h; rfl
  rw [sreClass, sreClass, e1, e2]
  simp [h2]

/-! ### Where `]` may be -/

theorem untilClose_open {s a b : Str} (h : untilClose s = some (a, b)) : ']' ∉ a := by
  induction s generalizing a with
  | nil => cases h
  | cons c s ih =>
    simp only [untilClose] at h
    split at h
    · cases h; simp
    · rename_i hc
      split at h
      · cases h
      · rename_i a' b' e
        cases h
        have := ih e
        simp only [List.mem_cons, not_or]
        exact ⟨fun e => hc (by simp [← e]), this⟩

theorem itms_open {s : Str} (h : ']' ∉ s) : ∀ i ∈ itms s, i.Open := by
  induction s using itms_induction with
  | nil => simp [itms]
  | rng x y r ih =>
    simp only [itms]
    simp only [List.mem_cons, not_or] at h
    exact List.forall_mem_cons.2 ⟨⟨Ne.symm h.1, Ne.symm h.2.2.1⟩, ih h.2.2.2⟩
  | one x s hs ih =>
    rw [itms_one hs]
    simp only [List.mem_cons, not_or] at h
    exact List.forall_mem_cons.2 ⟨Ne.symm h.1, ih h.2⟩

/-- `]` at most as the first character. -/
def OpenTail (s : Str) : Prop := ']' ∉ s.tail

theorem itms_openTail {s : Str} (h : OpenTail s) : (∀ i ∈ (itms s).head?, i.OpenEnd) ∧ ∀ i ∈ (itms s).tail, i.Open := by
  induction s using itms_induction with
  | nil => simp [itms]
  | rng x y r ih =>
    simp only [OpenTail, List.tail_cons, List.mem_cons, not_or] at h
    simp only [itms, List.head?_cons, Option.mem_some_iff, List.tail_cons]
    exact ⟨by rintro i rfl; exact Ne.symm h.2.1, itms_open h.2.2⟩
  | one x s hs ih =>
    rw [itms_one hs]
    simp only [List.head?_cons, Option.mem_some_iff, List.tail_cons]
    exact ⟨by rintro i rfl; trivial, itms_open h⟩

theorem Itm.Open.openEnd {i : Itm} (h : i.Open) : i.OpenEnd := by
  cases i with
  | one c => trivial
  | rng x y => exact h.2

theorem filter_openTail {l : List Itm} (h : (∀ i ∈ l.head?, i.OpenEnd) ∧ ∀ i ∈ l.tail, i.Open) (p : Itm → Bool) :
    (∀ i ∈ (l.filter p).head?, i.OpenEnd) ∧ ∀ i ∈ (l.filter p).tail, i.Open := by
  cases l with
  | nil => simp
  | cons i l =>
    obtain ⟨h1, h2⟩ := h
    simp only [List.head?_cons, Option.mem_some_iff, forall_eq', List.tail_cons] at h1 h2
    have h3 : ∀ j ∈ l.filter p, j.Open := fun j hj => h2 j (List.mem_filter.1 hj).1
    rw [List.filter_cons]
    split
    · exact ⟨by simpa using h1, h3⟩
    · exact ⟨fun j hj => (h3 j (List.mem_of_mem_head? hj)).openEnd, fun j hj => h3 j (List.mem_of_mem_tail hj)⟩

theorem bracketSplit_open {s body rest : Str} (h : bracketSplit s = some (body, rest)) :
    (∃ r, body = '!' :: r ∧ OpenTail r) ∨ (body.head? ≠ some '!' ∧ OpenTail body) := by
  unfold bracketSplit at h
  split at h
  · obtain ⟨p, hp, e⟩ := Option.map_eq_some_iff.1 h
    cases e
    exact .inl ⟨_, rfl, untilClose_open hp⟩
  · obtain ⟨p, hp, e⟩ := Option.map_eq_some_iff.1 h
    cases e
    exact .inl ⟨_, rfl, fun hm => untilClose_open hp (List.mem_of_mem_tail hm)⟩
  · obtain ⟨p, hp, e⟩ := Option.map_eq_some_iff.1 h
    cases e
    exact .inr ⟨by simp, untilClose_open hp⟩
  · rename_i h1 h2 h3
    have ho := untilClose_open h
    by_cases hb : body.head? = some '!'
    · obtain ⟨r, rfl⟩ : ∃ r, body = '!' :: r := by
        cases body with
        | nil => simp at hb
        | cons c r => simp at hb; exact ⟨r, by rw [hb]⟩
      exact .inl ⟨r, rfl, fun hm => ho (List.mem_cons_of_mem _ (List.mem_of_mem_tail hm))⟩
    · exact .inr ⟨hb, fun hm => ho (List.mem_of_mem_tail hm)⟩

/-! ### The set -/

theorem any_good (l : List Itm) (c : Char) :
    ((l.filter Itm.good).map Itm.range).any (fun r => r.has c) = (l.map Itm.range).any (fun r => r.has c) := by
  induction l with
  | nil => rfl
  | cons i l ih =>
    rw [List.filter_cons]
    split
    · simp only [List.map_cons, List.any_cons, ih]
    · rename_i h
      have : i.range.has c = false := by
        cases i with
        | one c => simp [Itm.good] at h
        | rng x y =>
          simp only [Itm.good, Bool.not_eq_true', decide_eq_false_iff_not, Nat.not_lt, Nat.not_le] at h
          simp only [Itm.range, GRange.has, Bool.and_eq_false_iff]
          rcases Nat.lt_or_ge c.toNat x.toNat with hc | hc
          · exact .inl (decide_eq_false (by omega))
          · exact .inr (decide_eq_false (by omega))
      simp only [List.map_cons, List.any_cons, this, Bool.false_or, ih]

theorem textOf_ne {l : List Itm} (h : l ≠ []) : textOf l ≠ [] := by
  obtain ⟨i, l, rfl⟩ := List.exists_cons_of_ne_nil h
  intro e
  have := congrArg List.length e
  cases i with
  | one c => have := escOne_length c; simp [textOf] at *; simp_all
  | rng x y => simp [textOf] at e

theorem dropBackward_itms (s : Str) : (itms (dropBackward s)).filter Itm.good = (itms s).filter Itm.good ∧
    (∀ i ∈ (itms (dropBackward s)).head?, i.good = true) ∧ (OpenTail s → OpenTail (dropBackward s)) := by
  induction s using itms_induction with
  | nil => simp [dropBackward, itms]
  | rng x y r ih =>
    unfold dropBackward
    simp only
    split
    · rename_i hlt
      refine ⟨?_, ih.2.1, fun h => ih.2.2 ?_⟩
      · rw [ih.1]
        simp only [itms, List.filter_cons, Itm.good, hlt, decide_true, Bool.not_true, Bool.false_eq_true, if_false]
      · intro hm
        exact h (by simp [List.mem_of_mem_tail hm])
    · rename_i hlt
      refine ⟨rfl, ?_, id⟩
      simp only [itms, List.head?_cons, Option.mem_some_iff]
      rintro i rfl
      simp [Itm.good, hlt]
  | one x s hs ih =>
    have e : dropBackward (x :: s) = x :: s := by
      unfold dropBackward
      split
      · rename_i y r h; cases h; exact absurd rfl (hs _ _)
      · rfl
    rw [e]
    refine ⟨rfl, ?_, id⟩
    rw [itms_one hs]
    simp only [List.head?_cons, Option.mem_some_iff]
    rintro i rfl
    rfl

theorem classMeaning_cls {body t : Str} (h : classRx body = .cls t) (ht : t.head? ≠ some '^') (more : Str) :
    classMeaning body more = (sreClass (t ++ ']' :: more).length true (t ++ ']' :: more)).map fun p => (.set false p.1, p.2) := by
  unfold classMeaning
  rw [h]
  split
  · rename_i e; cases e
  · rename_i e; cases e
  · rename_i e; cases e; exact absurd rfl ht
  · rename_i e; cases e; rfl

theorem classMeaning_neg (l : List Itm) (body more : Str) (hst : classStuff body = '!' :: textOf (l.filter Itm.good))
    (ho : (∀ i ∈ l.head?, i.OpenEnd) ∧ ∀ i ∈ l.tail, i.Open) :
    ∃ t, classMeaning body more = some (t, more) ∧ ∀ c, t.accepts c = (GTok.set true (l.map Itm.range)).accepts c := by
  have ho := filter_openTail ho Itm.good
  have hany := any_good l
  have hg : ∀ j ∈ l.filter Itm.good, j.good = true := fun j hj => (List.mem_filter.1 hj).2
  cases hl : l.filter Itm.good with
  | nil =>
    rw [hl] at hst hany
    refine ⟨.any, ?_, fun c => ?_⟩
    · simp only [classMeaning, classRx, hst, textOf]
    · simp [GTok.accepts, ← hany]
  | cons i l' =>
    rw [hl] at hst hany ho hg
    have hne := textOf_ne (l := i :: l') (by simp)
    obtain ⟨d, t, ht⟩ := List.exists_cons_of_ne_nil hne
    refine ⟨.set true ((i :: l').map Itm.range), ?_, fun c => ?_⟩
    · have hc : classRx body = .cls ('^' :: textOf (i :: l')) := by
        unfold classRx
        rw [hst, ht]
        rfl
      simp only [classMeaning, hc]
      rw [sreClass_first i l' hg (ho.1 i (by simp)) (by simpa using ho.2) more _ (Nat.le_refl _)]
      rfl
    · simp only [GTok.accepts, ← hany]

/-- What `re` makes of a bracket expression is the set of `bracketSet`, and it is never an error. -/
theorem bracket_meaning {s body rest : Str} (h : bracketSplit s = some (body, rest)) (more : Str) :
    ∃ t, classMeaning body more = some (t, more) ∧ ∀ c, t.accepts c = (bracketSet body).accepts c := by
  have hst := classStuff_eq body
  rcases bracketSplit_open h with ⟨r, rfl, ho⟩ | ⟨hb, ho⟩
  · have e : bracketSet ('!' :: r) = .set true ((itms r).map Itm.range) := by
      rw [← bracketItems_itms]; rfl
    rw [e]
    refine classMeaning_neg (itms r) _ more ?_ (itms_openTail ho)
    rw [hst]
    simp only [bodyItms, List.filter_cons, Itm.good, if_true, textOf]
    rfl
  · have eb : bodyItms body = itms body := by
      unfold bodyItms
      split
      · exact absurd rfl hb
      · rfl
    obtain ⟨d1, d2, d3⟩ := dropBackward_itms body
    have ho' := d3 ho
    rw [eb, ← d1] at hst
    have e : bracketSet body = match dropBackward body with
        | '!' :: '-' :: y :: rest => .set true (('-', '-') :: (y, y) :: bracketItems rest)
        | '!' :: rest => .set true (bracketItems rest)
        | rest => .set false (bracketItems rest) := by
      unfold bracketSet
      split
      · exact absurd rfl hb
      · rfl
    rw [e]
    generalize hb' : dropBackward body = b at *
    split
    · rename_i y r
      have hg1 : (Itm.rng '!' y).good = true := d2 _ (by simp [itms])
      simp only [itms, List.filter_cons, hg1, if_true, textOf] at hst
      rw [show escOne '!' = ['!'] by decide] at hst
      have hopen : ']' ∉ y :: r := fun hm => ho' (List.mem_cons_of_mem _ hm)
      have hi := itms_open hopen
      have hy : y ≠ ']' := by rintro rfl; exact hopen (by simp)
      have hr : ∀ i ∈ (itms r).filter Itm.good, i.Open := fun i hi =>
        itms_open (fun hm => hopen (List.mem_cons_of_mem _ hm)) i (List.mem_filter.1 hi).1
      refine ⟨.set true (('-', '-') :: (y, y) :: ((itms r).filter Itm.good).map Itm.range), ?_, fun c => ?_⟩
      · have hc : classRx body = .cls ('^' :: '-' :: (escOne y ++ textOf ((itms r).filter Itm.good))) := by
          unfold classRx
          rw [hst]
          rfl
        simp only [classMeaning, hc]
        simp only [List.cons_append, List.append_assoc, List.length_cons]
        rw [sreClass_hyphen]
        have := sreClass_items (.one y :: (itms r).filter Itm.good)
          (List.forall_mem_cons.2 ⟨rfl, fun j hj => (List.mem_filter.1 hj).2⟩) (List.forall_mem_cons.2 ⟨hy, hr⟩) more
          ((escOne y ++ (textOf ((itms r).filter Itm.good) ++ ']' :: more)).length) (by simp [textOf])
        simp only [textOf, List.append_assoc] at this
        rw [this]
        rfl
      · simp only [GTok.accepts, List.any_cons, any_good, bracketItems_itms]
    · rename_i r hne
      have hne' : ∀ y r', r ≠ '-' :: y :: r' := fun y r' e => hne y r' (by rw [e])
      rw [itms_one hne'] at hst
      rw [bracketItems_itms]
      refine classMeaning_neg (itms r) body more ?_ ?_
      · rw [hst]
        simp only [List.filter_cons, Itm.good, if_true, textOf]
        rfl
      · have : ∀ i ∈ itms r, i.Open := itms_open ho'
        exact ⟨fun i hi => (this i (List.mem_of_mem_head? hi)).openEnd, fun i hi => this i (List.mem_of_mem_tail hi)⟩
    · rename_i h1 h2
      rw [bracketItems_itms]
      have hany := any_good (itms b)
      have hoi := filter_openTail (itms_openTail ho') Itm.good
      have hg : ∀ j ∈ (itms b).filter Itm.good, j.good = true := fun j hj => (List.mem_filter.1 hj).2
      -- the first character of the text
      have hfirst : ∀ i l, (itms b).filter Itm.good = i :: l → i.range.1 ≠ '!' := by
        intro i l hl
        cases b with
        | nil => simp [itms] at hl
        | cons x b =>
          have hx : x ≠ '!' := by rintro rfl; exact h2 b rfl
          have : ∃ j k, itms (x :: b) = j :: k ∧ j.range.1 = x := by
            unfold itms
            split
            · rename_i e; cases e; exact ⟨_, _, rfl, rfl⟩
            · rename_i e; cases e; exact ⟨_, _, rfl, rfl⟩
            · rename_i e; cases e
          obtain ⟨j, k, ejk, hj⟩ := this
          have hjg := d2 j (by rw [ejk]; simp)
          rw [ejk, List.filter_cons, if_pos hjg] at hl
          cases hl
          rw [hj]; exact hx
      cases hl : (itms b).filter Itm.good with
      | nil =>
        rw [hl] at hst hany
        refine ⟨.set false [], by simp only [classMeaning, classRx, hst, textOf], fun c => ?_⟩
        simp [GTok.accepts, ← hany]
      | cons i l =>
        rw [hl] at hst hany hoi hg
        have hf := hfirst i l hl
        refine ⟨.set false ((i :: l).map Itm.range), ?_, fun c => by simp only [GTok.accepts, ← hany]⟩
        have hread := sreClass_first i l hg (hoi.1 i (by simp)) (by simpa using hoi.2) more
        obtain ⟨u, hu⟩ : ∃ u, textOf (i :: l) = escOne i.range.1 ++ u := by
          cases i with
          | one c => exact ⟨_, rfl⟩
          | rng x y => exact ⟨_, rfl⟩
        generalize hc0 : i.range.1 = c0 at *
        by_cases hesc : c0 ∈ ['\\', '-', '&', '~', '|']
        · have ht : textOf (i :: l) = '\\' :: c0 :: u := by rw [hu, escOne, if_pos hesc]; rfl
          have hc : classRx body = .cls (textOf (i :: l)) := by
            unfold classRx
            rw [hst, ht]
            rfl
          have := hread _ (Nat.le_refl _)
          rw [classMeaning_cls hc (by rw [ht]; simp), this]
          rfl
        · have ht : textOf (i :: l) = c0 :: u := by rw [hu, escOne, if_neg hesc]; rfl
          by_cases hsp : c0 = '^' ∨ c0 = '['
          · have hc : classRx body = .cls ('\\' :: c0 :: u) := by
              unfold classRx
              rw [hst, ht]
              rcases hsp with rfl | rfl <;> rfl
            have := hread ((textOf (i :: l) ++ ']' :: more).length + 1) (by omega)
            rw [classMeaning_cls hc (by simp)]
            rw [ht] at this
            simp only [List.cons_append, List.length_cons] at this ⊢
            rw [sreClass_escaped _ _ _ _ (by rcases hsp with rfl | rfl <;> decide) (by rcases hsp with rfl | rfl <;> decide), this]
            rfl
          · have hc : classRx body = .cls (c0 :: u) := by
              unfold classRx
              rw [hst, ht]
              simp only [not_or] at hsp
              split
              · rename_i e; cases e
              · rename_i e; cases e; exact absurd rfl hf
              · rename_i e; cases e; exact absurd rfl hf
              · rename_i e
                cases e
                simp [hsp.1, hsp.2]
            have := hread _ (Nat.le_refl _)
            rw [ht] at this
            rw [classMeaning_cls hc (by simpa using fun e => hsp (.inl e)), this]
            rfl

end Verif
