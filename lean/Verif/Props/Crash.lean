import Verif.Model.Crash
import Verif.Props.Bytes
import Verif.Props.Files
import Verif.Proofs.Chunks
/-!
# C93 Interrupted writing
-/

namespace Verif.Props
open Verif Verif.Spec

/-! ## The bytes -/

theorem unfinished_nothing {bad : List UInt8} (h : Unfinished bad) : decodeIgnore bad = [] := by
  rw [decode_spec]
  by_cases hb : bad = []
  · subst hb; exact .nil
  · have := Decodes.junk bad (rest := []) (s := []) ?_ (.inl ⟨h, hb⟩) ?_ .nil
    · rwa [List.append_nil] at this
    · intro c' hp
      rw [List.append_nil] at hp
      obtain ⟨c, more, hm, e⟩ := h
      obtain ⟨r, hr⟩ := hp
      have h1 := decode_char c []
      rw [List.append_nil, ← e, ← hr, List.append_assoc, decode_char] at h1
      have hc : c' = c := (List.cons.inj h1).1
      rw [← hr, hc, List.append_assoc] at e
      have := congrArg List.length e
      simp only [List.length_append] at this
      exact hm (List.eq_nil_of_length_eq_zero (by omega))
    · intro more hm hp
      exact absurd (List.prefix_nil.1 hp) hm

/-- The bytes of a text, cut anywhere: they show the text cut at some place. -/
theorem cut_text (s : Str) (n : Nat) : ∃ k, decodeIgnore ((encodeUtf8 s).take n) = s.take k := by
  induction s generalizing n with
  | nil => exact ⟨0, by simp [encodeUtf8, decodeIgnore, decodeFrom]⟩
  | cons c s ih =>
    have e : encodeUtf8 (c :: s) = String.utf8EncodeChar c ++ encodeUtf8 s := rfl
    rw [e, List.take_append]
    by_cases hn : (String.utf8EncodeChar c).length ≤ n
    · obtain ⟨k, hk⟩ := ih (n - (String.utf8EncodeChar c).length)
      refine ⟨k + 1, ?_⟩
      rw [List.take_of_length_le hn, decode_char, hk]
      rfl
    · refine ⟨0, ?_⟩
      rw [show n - (String.utf8EncodeChar c).length = 0 by omega, List.take_zero, List.append_nil]
      refine unfinished_nothing ⟨c, (String.utf8EncodeChar c).drop n, ?_, List.take_append_drop _ _⟩
      intro h
      have := congrArg List.length h
      rw [List.length_drop, List.length_nil] at this
      omega

/-! ## The values -/

theorem newlines_take (s : Str) : ∀ k, universalNewlines (s.take k) <+: universalNewlines s := by
  have hcons : ∀ (x : Char) (a b : Str), a <+: b → x :: a <+: x :: b := by
    rintro x a b ⟨r, rfl⟩
    exact ⟨r, rfl⟩
  have hnil : ∀ b : Str, universalNewlines [] <+: b := fun b => List.nil_prefix
  induction h : s.length using Nat.strong_induction_on generalizing s with
  | _ n ih =>
    intro k
    cases s with
    | nil => simp
    | cons x s =>
      cases k with
      | zero => exact hnil _
      | succ k =>
        rw [List.take_succ_cons]
        have ihs := ih s.length (by rw [← h]; simp) s rfl
        by_cases hx : x = '\r'
        · subst hx
          cases s with
          | nil => simp
          | cons y s =>
            by_cases hy : y = '\n'
            · subst hy
              cases k with
              | zero => exact ⟨universalNewlines s, rfl⟩
              | succ k => exact hcons '\n' _ _ (ih s.length (by rw [← h]; simp only [List.length_cons]; omega) s rfl k)
            · rw [universalNewlines.eq_2 ((y :: s).take k) (by
                  intro z hz
                  cases k with
                  | zero => simp at hz
                  | succ k => rw [List.take_succ_cons] at hz; exact hy (List.cons.inj hz).1),
                universalNewlines.eq_2 (y :: s) (fun z hz => hy (List.cons.inj hz).1)]
              exact hcons _ _ _ (ihs k)
        · rw [universalNewlines.eq_3 _ _ (by simp [hx]) (by simp [hx]),
            universalNewlines.eq_3 _ _ (by simp [hx]) (by simp [hx])]
          exact hcons _ _ _ (ihs k)

theorem splitAt1_joined (p : Char → Bool) (u r : Str) : ∃ ls l m rest, splitAt1 p u = ls ++ [l] ∧
    splitAt1 p (u ++ r) = ls ++ (l ++ m) :: rest := by
  induction u with
  | nil =>
    obtain ⟨g, gs, -, h, -⟩ := splitAt1_first (p := p) r
    exact ⟨[], [], g, gs, rfl, h⟩
  | cons c u ih =>
    obtain ⟨ls, l, m, rest, h1, h2⟩ := ih
    by_cases hc : p c = true
    · exact ⟨[] :: ls, l, m, rest, by simp [splitAt1, hc, h1], by simp [splitAt1, hc, h2]⟩
    · cases ls with
      | nil => exact ⟨[], c :: l, m, rest, by simp [splitAt1, hc, h1, consHead], by simp [splitAt1, hc, h2, consHead]⟩
      | cons x ls =>
        exact ⟨(c :: x) :: ls, l, m, rest, by simp [splitAt1, hc, h1, consHead], by simp [splitAt1, hc, h2, consHead]⟩

theorem rstripP_prefix (p : Char → Bool) (a m : Str) : rstripP p a <+: rstripP p (a ++ m) := by
  unfold rstripP
  rw [List.reverse_append]
  generalize m.reverse = r
  induction r with
  | nil => exact List.prefix_refl _
  | cons x r ih =>
    rw [List.cons_append, List.dropWhile_cons]
    split
    · exact ih
    · have : (a.reverse.dropWhile p).reverse <+: a := by
        obtain ⟨y, hy⟩ := List.dropWhile_suffix p (l := a.reverse)
        refine ⟨y.reverse, ?_⟩
        rw [← List.reverse_append, hy, List.reverse_reverse]
      refine this.trans ⟨(x :: r).reverse, ?_⟩
      simp

theorem strip_prefix {l m : Str} (h : strip l ≠ []) : strip l <+: strip (l ++ m) := by
  unfold strip stripP lstripP at *
  have : (l ++ m).dropWhile isSpace = l.dropWhile isSpace ++ m := by
    induction l with
    | nil => exact absurd rfl h
    | cons x l ih =>
      rw [List.cons_append, List.dropWhile_cons, List.dropWhile_cons]
      split
      · rename_i hx
        rw [List.dropWhile_cons, if_pos hx] at h
        exact ih h
      · rfl
  rw [this]
  exact rstripP_prefix _ _ _

/-- The values of a text cut anywhere: the first values of the whole text, and perhaps the beginning of the next one. -/
theorem cut_values (s : Str) (k : Nat) : ∃ j, textValues (s.take k) = (textValues s).take j ∨
    ∃ x y, x ≠ [] ∧ (textValues s)[j]? = some (x ++ y) ∧ textValues (s.take k) = (textValues s).take j ++ [x] := by
  obtain ⟨r, hr⟩ := newlines_take s k
  unfold textValues fileLines
  rw [← hr]
  generalize universalNewlines (s.take k) = u
  obtain ⟨ls, l, m, rest, h1, h2⟩ := splitAt1_joined (fun c => c == '\n') u r
  have e1 : splitChar '\n' u = ls ++ [l] := h1
  have e2 : splitChar '\n' (u ++ r) = ls ++ (l ++ m) :: rest := h2
  rw [e1, e2]
  refine ⟨((ls.filter fun l => !isEmptyLine l).map strip).length, ?_⟩
  simp only [List.filter_append, List.map_append]
  have htake : ∀ (a b : List Str), (a ++ b).take a.length = a := by
    intro a b
    rw [List.take_left]
  rw [htake]
  by_cases hl : isEmptyLine l = true
  · left
    simp [hl]
  · right
    simp only [isEmptyLine, Bool.or_eq_true, beq_iff_eq, not_or] at hl
    obtain ⟨y, hy⟩ := strip_prefix (m := m) hl.1
    have hlm : isEmptyLine (l ++ m) = false := by
      unfold isEmptyLine
      rw [← hy]
      cases hs : strip l with
      | nil => exact absurd hs hl.1
      | cons x xs =>
        have := hl.2
        rw [hs] at this
        simpa [startsWith, List.isPrefixOf] using this
    refine ⟨strip l, y, hl.1, ?_, ?_⟩
    · rw [List.getElem?_append_right (Nat.le_refl _), Nat.sub_self, List.filter_cons_of_pos (by simp [hlm]),
        List.map_cons, ← hy]
      rfl
    · have : isEmptyLine l = false := by simp [isEmptyLine, hl]
      simp [this]

/-! ## The disk -/

theorem entry_setEntry_ne {α : Type} (es : List (Str × FTree α)) (n n' : Str) (x : FTree α) (h : n ≠ n') :
    FTree.entry (FTree.setEntry es n x) n' = FTree.entry es n' := by
  induction es with
  | nil => simp [FTree.setEntry, FTree.entry, h]
  | cons p es ih =>
    obtain ⟨m, y⟩ := p
    simp only [FTree.setEntry]
    split
    · rename_i hm
      subst hm
      simp [FTree.entry, h]
    · simp only [FTree.entry, ih]

theorem write_elsewhere {α : Type} {fs fs' : FTree α} {c : α} {p q : Path} (h : fs.write c p = some fs') (hq : q ≠ p) :
    fs'.read q = fs.read q := by
  induction p generalizing fs fs' q with
  | nil =>
    cases fs with
    | file _ =>
      simp [FTree.write] at h
      subst h
      cases q with
      | nil => exact absurd rfl hq
      | cons a q => rfl
    | dir _ => simp [FTree.write] at h
    | broken => simp [FTree.write] at h
  | cons n p ih =>
    cases fs with
    | file _ => simp [FTree.write] at h
    | broken => simp [FTree.write] at h
    | dir es =>
      simp only [FTree.write] at h
      cases he : FTree.entry es n with
      | none =>
        rw [he] at h
        simp only at h
        split at h
        · rename_i hp
          simp only [List.isEmpty_iff] at hp
          subst hp
          simp only [Option.some.injEq] at h
          subst h
          cases q with
          | nil => rfl
          | cons a q =>
            by_cases ha : n = a
            · subst ha
              cases q with
              | nil => exact absurd rfl hq
              | cons b q => simp [FTree.read, FTree.at, entry_setEntry, he]
            · simp only [FTree.read, FTree.at, entry_setEntry_ne _ _ _ _ ha]
        · simp at h
      | some m =>
        rw [he] at h
        simp only [Option.map_eq_some_iff] at h
        obtain ⟨m', hm, rfl⟩ := h
        cases q with
        | nil => rfl
        | cons a q =>
          by_cases ha : n = a
          · subst ha
            have := ih hm (q := q) (by simpa using hq)
            simp only [FTree.read, FTree.at, entry_setEntry, he] at this ⊢
            exact this
          · simp only [FTree.read, FTree.at, entry_setEntry_ne _ _ _ _ ha]

/-- **C93.**  If `write_text` is interrupted at any point, the file is as it was before, or it shows the beginning of the
new text, cut at some character (never a part of a character, never a mixture of old and new); all other files are as they
were. -/
theorem interrupted_write (fs : FTree Bytes) (p : Path) (contents : Str) (fs' : FTree Bytes)
    (h : fs' ∈ writeStates fs p contents) :
    (fs' = fs ∨ ∃ k, byteRead fs' p = some (contents.take k)) ∧ ∀ q, q ≠ p → fs'.read q = fs.read q := by
  rcases List.mem_cons.1 h with rfl | h
  · exact ⟨.inl rfl, fun _ _ => rfl⟩
  · obtain ⟨n, -, hn⟩ := List.mem_filterMap.1 h
    refine ⟨.inr ?_, fun q hq => write_elsewhere hn hq⟩
    obtain ⟨k, hk⟩ := cut_text contents n
    exact ⟨k, by rw [byteRead, write_read hn, Option.map_some, hk]⟩

/-- **C93.**  The values then found in the file are the old ones; or the first ones of the new text; or these and the
beginning of the next one. -/
theorem interrupted_values (fs : FTree Bytes) (p : Path) (contents : Str) (fs' : FTree Bytes)
    (h : fs' ∈ writeStates fs p contents) :
    fs' = fs ∨ ∃ bs j, fs'.read p = some bs ∧ (byteValues bs = (textValues contents).take j ∨
      ∃ x y, x ≠ [] ∧ (textValues contents)[j]? = some (x ++ y) ∧ byteValues bs = (textValues contents).take j ++ [x]) := by
  rcases List.mem_cons.1 h with rfl | h
  · exact .inl rfl
  · obtain ⟨n, -, hn⟩ := List.mem_filterMap.1 h
    obtain ⟨k, hk⟩ := cut_text contents n
    obtain ⟨j, hj⟩ := cut_values contents k
    refine .inr ⟨_, j, write_read hn, ?_⟩
    rw [byteValues, hk]
    exact hj

/-- **C93.**  If it is not interrupted, the last state has the new text, and its values. -/
theorem finished_write (fs : FTree Bytes) (p : Path) (contents : Str) (old : Bytes) (h : fs.read p = some old) :
    ∃ fs', (writeStates fs p contents).getLast? = some fs' ∧ byteRead fs' p = some contents := by
  obtain ⟨fs', hw⟩ := write_again (c' := encodeUtf8 contents) h
  refine ⟨fs', ?_, ?_⟩
  · have : ∀ n, (encodeUtf8 contents).length ≤ n → fs.write ((encodeUtf8 contents).take n) p = some fs' := by
      intro n hn
      rw [List.take_of_length_le hn, hw]
    rw [writeStates, List.range_succ, List.filterMap_append, List.filterMap_cons, this _ (Nat.le_refl _)]
    exact List.getLast?_concat (l := fs :: _)
  · rw [byteRead, write_read hw, Option.map_some]
    have := text_decoded contents []
    rw [List.append_nil] at this
    rw [show encodeUtf8 contents = Utf8 contents from rfl, this]
    simp [decodeIgnore, decodeFrom]

/-! ## The collections -/

section
variable {α : Type}

/-- The same file, with the same contents unless it is a text file. -/
def SameFile (f g : Path × Option α) : Prop :=
  f.1 = g.1 ∧ (f.2 = g.2 ∨ ¬ isStructured (f.1.getLastD []) = true)

theorem sameFiles_refl (fs : List (Path × Option α)) : List.Forall₂ SameFile fs fs := by
  induction fs with
  | nil => exact .nil
  | cons f fs ih => exact .cons ⟨rfl, .inl rfl⟩ ih

/-- Both are directories or neither is, and the same files are found in them. -/
def SameFiles (d d' : FTree α) : Prop :=
  ((∃ es, d = .dir es) ↔ ∃ es, d' = .dir es) ∧ ∀ rel, List.Forall₂ SameFile (walkNode rel d) (walkNode rel d')

theorem filesOf_set (rel : Path) (es : List (Str × FTree α)) (n : Str) (x x' : FTree α)
    (he : FTree.entry es n = some x)
    (hx : ((∃ a, x = .dir a) ∧ ∃ a, x' = .dir a) ∨
      (∃ a, x = .file a) ∧ (∃ a, x' = .file a) ∧ ¬ isStructured n = true) :
    List.Forall₂ SameFile (filesOf rel es) (filesOf rel (FTree.setEntry es n x')) := by
  induction es with
  | nil => simp [FTree.entry] at he
  | cons q es ih =>
    obtain ⟨m, y⟩ := q
    simp only [FTree.entry] at he
    simp only [FTree.setEntry]
    by_cases hm : m = n
    · subst hm
      rw [if_pos rfl] at he ⊢
      cases he
      rcases hx with ⟨⟨a, rfl⟩, ⟨b, rfl⟩⟩ | ⟨⟨a, rfl⟩, ⟨b, rfl⟩, hs⟩
      · simp only [filesOf]
        exact sameFiles_refl _
      · simp only [filesOf]
        refine .cons ⟨rfl, .inr ?_⟩ (sameFiles_refl _)
        rwa [List.getLastD_concat]
    · rw [if_neg hm] at he ⊢
      cases y with
      | file a => exact .cons ⟨rfl, .inl rfl⟩ (ih he)
      | broken => exact .cons ⟨rfl, .inl rfl⟩ (ih he)
      | dir a => exact ih he

theorem walkDirs_set (rel : Path) (es : List (Str × FTree α)) (n : Str) (x x' : FTree α)
    (he : FTree.entry es n = some x)
    (hx : List.Forall₂ SameFile (walkNode (rel ++ [n]) x) (walkNode (rel ++ [n]) x')) :
    List.Forall₂ SameFile (walkDirs rel es) (walkDirs rel (FTree.setEntry es n x')) := by
  induction es with
  | nil => simp [FTree.entry] at he
  | cons q es ih =>
    obtain ⟨m, y⟩ := q
    simp only [FTree.entry] at he
    simp only [FTree.setEntry]
    by_cases hm : m = n
    · subst hm
      rw [if_pos rfl] at he ⊢
      cases he
      simp only [walkDirs]
      refine List.rel_append ?_ (sameFiles_refl _)
      split
      · exact .nil
      · exact hx
    · rw [if_neg hm] at he ⊢
      simp only [walkDirs]
      exact List.rel_append (sameFiles_refl _) (ih he)

theorem read_at {fs : FTree α} {p : Path} {c : α} (h : fs.read p = some c) : fs.at p = some (.file c) := by
  unfold FTree.read at h
  split at h
  · simp at h; subst h; assumption
  · simp at h

theorem write_sameFiles {fs fs' : FTree α} {p : Path} {old c : α} (hr : fs.read p = some old)
    (hs : ¬ isStructured (p.getLastD []) = true) (hw : fs.write c p = some fs') : SameFiles fs fs' := by
  have hr := read_at hr
  induction p generalizing fs fs' with
  | nil =>
    simp only [FTree.at, Option.some.injEq] at hr
    subst hr
    simp only [FTree.write, Option.some.injEq] at hw
    subst hw
    exact ⟨by simp, fun rel => .nil⟩
  | cons n p ih =>
    cases fs with
    | file _ => simp [FTree.write] at hw
    | broken => simp [FTree.write] at hw
    | dir es =>
      simp only [FTree.at] at hr
      simp only [FTree.write] at hw
      cases he : FTree.entry es n with
      | none => rw [he] at hr; simp at hr
      | some m =>
        rw [he] at hr hw
        simp only [Option.map_eq_some_iff] at hw
        obtain ⟨m', hm, rfl⟩ := hw
        cases p with
        | nil =>
          simp only [FTree.at, Option.some.injEq] at hr
          subst hr
          simp only [FTree.write, Option.some.injEq] at hm
          subst hm
          refine ⟨by simp, fun rel => ?_⟩
          simp only [walkNode]
          exact List.rel_append (filesOf_set rel es n _ _ he (.inr ⟨⟨_, rfl⟩, ⟨_, rfl⟩, hs⟩))
            (walkDirs_set rel es n _ _ he .nil)
        | cons q p =>
          have := ih (by rw [FTree.read]; simp only at hr; rw [hr]) hs hm hr
          have hdir : ∃ a, m = .dir a := by
            cases m with
            | dir a => exact ⟨a, rfl⟩
            | file _ => simp [FTree.at] at hr
            | broken => simp [FTree.at] at hr
          refine ⟨by simp, fun rel => ?_⟩
          simp only [walkNode]
          exact List.rel_append (filesOf_set rel es n _ _ he (.inl ⟨hdir, this.1.1 hdir⟩))
            (walkDirs_set rel es n _ _ he (this.2 _))

theorem write_sameRoot {fs fs' : FTree α} {p : Path} {old c : α} (hr : fs.read p = some old)
    (hs : ¬ isStructured (p.getLastD []) = true) (hw : fs.write c p = some fs') (root : Path) :
    (fs.at root = none ∧ fs'.at root = none) ∨ ∃ d d', fs.at root = some d ∧ fs'.at root = some d' ∧ SameFiles d d' := by
  induction root generalizing fs fs' p with
  | nil => exact .inr ⟨fs, fs', rfl, rfl, write_sameFiles hr hs hw⟩
  | cons a root ih =>
    have hr' := read_at hr
    cases p with
    | nil =>
      simp only [FTree.at, Option.some.injEq] at hr'
      subst hr'
      simp only [FTree.write, Option.some.injEq] at hw
      subst hw
      exact .inl ⟨rfl, rfl⟩
    | cons n p =>
      cases fs with
      | file _ => simp [FTree.write] at hw
      | broken => simp [FTree.write] at hw
      | dir es =>
        simp only [FTree.at] at hr'
        simp only [FTree.write] at hw
        cases he : FTree.entry es n with
        | none => rw [he] at hr'; simp at hr'
        | some m =>
          rw [he] at hr' hw
          simp only [Option.map_eq_some_iff] at hw
          obtain ⟨m', hm, rfl⟩ := hw
          simp only [FTree.at]
          by_cases ha : n = a
          · subst ha
            rw [he, entry_setEntry]
            cases p with
            | nil =>
              simp only [FTree.at, Option.some.injEq] at hr'
              subst hr'
              simp only [FTree.write, Option.some.injEq] at hm
              subst hm
              cases root with
              | nil => exact .inr ⟨_, _, rfl, rfl, by simp, fun rel => .nil⟩
              | cons b root => exact .inl ⟨rfl, rfl⟩
            | cons q p => exact ih (p := q :: p) (by rw [FTree.read]; simp only at hr'; rw [hr']) hs hm
          · rw [entry_setEntry_ne _ _ _ _ ha]
            cases FTree.entry es a with
            | none => exact .inl ⟨rfl, rfl⟩
            | some y =>
              simp only
              cases y.at root with
              | none => exact .inl ⟨rfl, rfl⟩
              | some d => exact .inr ⟨d, d, rfl, rfl, Iff.rfl, fun rel => sameFiles_refl _⟩

end

/-- **C93.**  Interrupted or not, writing an existing text file changes no collection: the same wildcards exist, and they
belong to the same files. -/
theorem interrupted_collections (lib : Lib) (roots : RootMap) (fs : FTree Bytes) (p : Path) (old : Bytes) (contents : Str)
    (hr : fs.read p = some old) (hs : isStructured (p.getLastD []) = false) (fs' : FTree Bytes)
    (h : fs' ∈ writeStates fs p contents) : byteRootMapColls lib fs' roots = byteRootMapColls lib fs roots := by
  rcases List.mem_cons.1 h with rfl | h
  · rfl
  · obtain ⟨n, -, hw⟩ := List.mem_filterMap.1 h
    have hitem : ∀ item, byteRootItemMap lib fs' item = byteRootItemMap lib fs item := by
      intro item
      cases item with
      | dict d => rfl
      | path root =>
        rcases write_sameRoot hr (by rw [hs]; exact Bool.false_ne_true) hw root with ⟨h1, h2⟩ | ⟨d, d', h1, h2, hd, hw⟩
        · simp only [byteRootItemMap, h1, h2]
        · have hfold : ∀ (l l' : List (Path × Option Bytes)) (m : Dict RawColl), List.Forall₂ SameFile l l' →
              l'.foldl (fun m f => m.update (byteCollections lib root f.1 f.2)) m =
                l.foldl (fun m f => m.update (byteCollections lib root f.1 f.2)) m := by
            intro l l' m hl
            induction hl generalizing m with
            | nil => rfl
            | @cons f g l l' hf hl ih =>
              rw [List.foldl_cons, List.foldl_cons, ih]
              obtain ⟨e, hc⟩ := hf
              congr 2
              rw [← e]
              rcases hc with hc | hc
              · rw [hc]
              · exact unstructured_contents lib root f.1 hc _ _
          have hmap : byteDirMap lib fs' root = byteDirMap lib fs root := by
            simp only [byteDirMap, h1, h2]
            exact hfold _ _ _ (hw [])
          simp only [byteRootItemMap, h1, h2, hmap]
          cases d with
          | dir es =>
            obtain ⟨es', rfl⟩ := hd.1 ⟨es, rfl⟩
            rfl
          | file b =>
            cases d' with
            | dir es => obtain ⟨_, h⟩ := hd.2 ⟨es, rfl⟩; cases h
            | file _ => rfl
            | broken => rfl
          | broken =>
            cases d' with
            | dir es => obtain ⟨_, h⟩ := hd.2 ⟨es, rfl⟩; cases h
            | file _ => rfl
            | broken => rfl
    simp only [byteRootMapColls, hitem]

/-! ## Writing that fails while the program goes on -/

/-- What can be done with a text collection. -/
inductive DiskOp where
  | read
  | write (contents : Str)
  /-- an error after `k` characters -/
  | fail (contents : Str) (k : Nat)

/-- Do it, catching the errors; the results of the reads in order. -/
def runDiskOps {R : Type} (id : Nat) : List DiskOp → Mgr R → List (Except Err (List Str))
  | [], _ => []
  | .read :: ops, s =>
    match Mgr.textGetValues id s with
    | .ok vs s => .ok vs :: runDiskOps id ops s
    | .err e s => .error e :: runDiskOps id ops s
    | .fuel => []
  | .write c :: ops, s =>
    match Mgr.textWrite id c s with
    | .ok _ s => runDiskOps id ops s
    | .err _ s => runDiskOps id ops s
    | .fuel => []
  | .fail c k :: ops, s =>
    match Mgr.textWriteFails id c k s with
    | .ok _ s => runDiskOps id ops s
    | .err _ s => runDiskOps id ops s
    | .fuel => []

/-- What the reads give: the file is `cur`, and `seen` is the text of it that was read since it was written with success.
A failure changes the file, but not what was seen. -/
def diskReads (cur : Str) (seen : Option Str) : List DiskOp → List (Except Err (List Str))
  | [] => []
  | .read :: ops => .ok (textValues (seen.getD cur)) :: diskReads cur (some (seen.getD cur)) ops
  | .write c :: ops => diskReads c none ops
  | .fail c k :: ops => diskReads (c.take k) seen ops

/-- **C93.**  A failing write of an existing collection is always reported as an OSError. -/
theorem failed_write_raises {R : Type} (id : Nat) (contents : Str) (k : Nat) (s : Mgr R) (o : TextObj) (ho : s.heap[id]? = some o) :
    ∃ s', Mgr.textWriteFails id contents k s = .err .os s' ∧ s'.heap = s.heap := by
  unfold Mgr.textWriteFails
  rw [ho]
  dsimp only
  cases s.fs.write (contents.take k) o.path <;> exact ⟨_, rfl, rfl⟩

/-- **C93.**  In every history of reads, writes and failing writes of an existing file: no read fails; a read after a
successful write gives what was written, unless a later write failed before the first read, which then gives the beginning
of the text of the failed one; further reads give the same until the next successful write, even after failures. -/
theorem reads_after_failures {R : Type} (ops : List DiskOp) (id : Nat) (s : Mgr R) (o : TextObj) (cur : Str)
    (seen : Option Str) (ho : s.heap[id]? = some o) (hf : s.fs.read o.path = some cur)
    (hc : o.cache = seen.map textValues) : runDiskOps id ops s = diskReads cur seen ops := by
  induction ops generalizing s o cur seen with
  | nil => rfl
  | cons op ops ih =>
    have hlt : id < s.heap.length := by
      rw [List.getElem?_eq_some_iff] at ho; exact ho.1
    cases op with
    | read =>
      cases seen with
      | none =>
        simp only [runDiskOps, diskReads, Mgr.textGetValues, ho, hc, hf, Option.map_none, Option.getD_none]
        exact congrArg _ (ih { s with heap := s.heap.set id ⟨o.path, some (textValues cur)⟩ }
          ⟨o.path, some (textValues cur)⟩ cur (some cur) (by simp [hlt]) hf rfl)
      | some t =>
        simp only [runDiskOps, diskReads, Mgr.textGetValues, ho, hc, Option.map_some, Option.getD_some]
        rw [ih s o cur (some t) ho hf hc]
    | write c =>
      obtain ⟨fs', hw⟩ := write_again (c' := c) hf
      simp only [runDiskOps, diskReads, Mgr.textWrite, ho, hw]
      exact ih _ ⟨o.path, none⟩ c none (by simp [hlt]) (write_read hw) rfl
    | fail c k =>
      obtain ⟨fs', hw⟩ := write_again (c' := c.take k) hf
      simp only [runDiskOps, diskReads, Mgr.textWriteFails, ho, hw]
      exact ih { s with fs := fs' } o (c.take k) seen ho (write_read hw) hc

/-- A write that fails: the values read before are still given; a collection of a new manager gives the new ones. -/
example : runDiskOps 0 [.read, .fail c!"b\nccc" 3, .read, .write c!"d", .fail c!"eee" 2, .read]
    ({ newMgr (.dir [(c!"x.txt", .file c!"a")]) () with heap := [⟨[c!"x.txt"], none⟩] }) =
      [.ok [c!"a"], .ok [c!"a"], .ok [c!"ee"]] :=
  reads_after_failures _ 0 _ ⟨[c!"x.txt"], none⟩ c!"a" none rfl rfl rfl

/-! ## Examples -/

/-- A file with two values is being replaced; after seven bytes "thé" is there without its last letter. -/
def crashFs : FTree Bytes := .dir [(c!"w", .dir [(c!"b.txt", .file (encodeUtf8 c!"old\nolder")), (c!"c.txt", .file [0x78])])]

example : crashFs.read [c!"w", c!"b.txt"] = some (encodeUtf8 c!"old\nolder") ∧ isStructured c!"b.txt" = false ∧
    (writeStates crashFs [c!"w", c!"b.txt"] c!"tea\nthé\nbeer").length = 15 ∧
    ((writeStates crashFs [c!"w", c!"b.txt"] c!"tea\nthé\nbeer").map fun fs => (fs.read [c!"w", c!"b.txt"]).map byteValues) =
      [some [c!"old", c!"older"], some [], some [c!"t"], some [c!"te"], some [c!"tea"], some [c!"tea"],
        some [c!"tea", c!"t"], some [c!"tea", c!"th"], some [c!"tea", c!"th"], some [c!"tea", c!"thé"],
        some [c!"tea", c!"thé"], some [c!"tea", c!"thé", c!"b"], some [c!"tea", c!"thé", c!"be"],
        some [c!"tea", c!"thé", c!"bee"], some [c!"tea", c!"thé", c!"beer"]] := by decide +kernel

/-- A file that is not there is made, so a new wildcard exists. -/
example : (writeStates crashFs [c!"w", c!"d.txt"] c!"x").map (fun fs => (byteRootMapColls demoLib fs [([], [.path [c!"w"]])]).map (·.1)) =
    [[c!"b", c!"c"], [c!"b", c!"c", c!"d"], [c!"b", c!"c", c!"d"]] := by decide +kernel

/-- The file cannot be opened if its directory is not there. -/
example : (writeStates crashFs [c!"v", c!"d.txt"] c!"x").length = 1 := by decide +kernel

end Verif.Props
