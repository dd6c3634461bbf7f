import Verif.Proofs.Bytes
import Verif.Proofs.Files
import Verif.Props.Links
/-!
# Files as bytes (C91)
-/

namespace Verif.Props
open Verif Verif.Spec

theorem decodeFrom_drop (k : Nat) (bs : List UInt8) : decodeFrom k bs = decodeIgnore (bs.drop k) := by
  induction bs generalizing k with
  | nil => cases k <;> rfl
  | cons b bs ih =>
    cases k with
    | zero => rfl
    | succ k => rw [decodeFrom, ih, List.drop_succ_cons]

theorem decodeStrictFrom_drop (k : Nat) (bs : List UInt8) : decodeStrictFrom k bs = decodeStrict (bs.drop k) := by
  induction bs generalizing k with
  | nil => cases k <;> rfl
  | cons b bs ih =>
    cases k with
    | zero => rfl
    | succ k => rw [decodeStrictFrom, ih, List.drop_succ_cons]

theorem decode_some {b : UInt8} {bs : List UInt8} {c : Char} {n : Nat} (h : utf8Step b bs = (some c, n)) :
    decodeIgnore (b :: bs) = c :: decodeIgnore (bs.drop n) := by
  rw [← decodeFrom_drop, decodeIgnore, decodeFrom, h]

theorem decode_none {b : UInt8} {bs : List UInt8} {n : Nat} (h : utf8Step b bs = (none, n)) :
    decodeIgnore (b :: bs) = decodeIgnore (bs.drop n) := by
  rw [← decodeFrom_drop, decodeIgnore, decodeFrom, h]

theorem decode_char (c : Char) (rest : List UInt8) :
    decodeIgnore (String.utf8EncodeChar c ++ rest) = c :: decodeIgnore rest := by
  obtain ⟨b, t, e, h⟩ := step_encoded c
  rw [e, List.cons_append, decode_some (h rest), List.drop_left]

/-- **C91.**  A text is read as it was encoded, whatever follows. -/
theorem text_decoded (s : Str) (rest : List UInt8) : decodeIgnore (Utf8 s ++ rest) = s ++ decodeIgnore rest := by
  induction s with
  | nil => rfl
  | cons c s ih =>
    rw [Utf8, List.flatMap_cons, List.append_assoc, decode_char]
    exact congrArg (c :: ·) ih

theorem step_length {b : UInt8} {x : List UInt8} : (utf8Step b x).2 ≤ x.length := by
  cases h : utf8Step b x with
  | mk o n =>
    cases o with
    | none => exact step_error_length h
    | some c =>
      obtain ⟨t, r, rfl, rfl, -⟩ := step_char h
      simp

theorem decode_before (x y : List UInt8) (d : UInt8) (hd : isCont d = false) :
    decodeIgnore (x ++ d :: y) = decodeIgnore x ++ decodeIgnore (d :: y) := by
  generalize hk : x.length = k
  induction k using Nat.strong_induction_on generalizing x with
  | _ k ih =>
    cases x with
    | nil => rfl
    | cons b x =>
      have hs := step_before (b := b) x y hd
      have hl := step_length (b := b) (x := x)
      cases h : utf8Step b x with
      | mk o n =>
        rw [h] at hs hl
        have := ih (x.drop n).length (by simp at hk ⊢; omega) (x.drop n) rfl
        cases o with
        | none =>
          rw [List.cons_append, decode_none hs, decode_none h, List.drop_append_of_le_length hl, this]
        | some c =>
          rw [List.cons_append, decode_some hs, decode_some h, List.drop_append_of_le_length hl, this]
          rfl

theorem encoded_first (c : Char) : ∃ b t, String.utf8EncodeChar c = b :: t ∧ isCont b = false := by
  obtain ⟨b, t, e, h⟩ := step_encoded c
  refine ⟨b, t, e, ?_⟩
  have h := h []
  cases hc : isCont b with
  | false => rfl
  | true =>
    simp only [isCont, decide_eq_true_eq] at hc
    simp only [utf8Step] at h
    rw [if_neg (by omega), if_pos (by omega)] at h
    cases h

/-- **C91.**  Bytes that cannot be decoded are left out, wherever they are; the text around them is read as it is. -/
theorem junk_left_out (x : List UInt8) (s : Str) (hs : s ≠ []) (y : List UInt8) :
    decodeIgnore (x ++ Utf8 s ++ y) = decodeIgnore x ++ s ++ decodeIgnore y := by
  cases s with
  | nil => exact absurd rfl hs
  | cons c s =>
    obtain ⟨b, t, e, hb⟩ := encoded_first c
    have h : Utf8 (c :: s) ++ y = b :: (t ++ (Utf8 s ++ y)) := by
      rw [Utf8, List.flatMap_cons, e, List.append_assoc]; rfl
    rw [List.append_assoc, h, decode_before _ _ _ hb, ← h, text_decoded, List.append_assoc]

theorem decodes_decode (bs : List UInt8) : Decodes bs (decodeIgnore bs) := by
  generalize hk : bs.length = k
  induction k using Nat.strong_induction_on generalizing bs with
  | _ k ih =>
    cases bs with
    | nil => exact .nil
    | cons b x =>
      have hl := step_length (b := b) (x := x)
      cases h : utf8Step b x with
      | mk o n =>
        rw [h] at hl
        have hrec := ih (x.drop n).length (by simp at hk ⊢; omega) (x.drop n) rfl
        cases o with
        | some c =>
          obtain ⟨t, r, rfl, rfl, e⟩ := step_char h
          rw [List.drop_left] at hrec
          rw [decode_some h, List.drop_left, ← List.cons_append, ← e]
          exact .char c hrec
        | none =>
          rw [decode_none h]
          have hx : b :: x = (b :: x.take n) ++ x.drop n := by rw [List.cons_append, List.take_append_drop]
          rw [hx]
          refine .junk _ ?_ ?_ ?_ hrec
          · intro c ⟨r, hr⟩
            rw [← hx] at hr
            obtain ⟨b', t, e, hs⟩ := step_encoded c
            rw [e, List.cons_append, List.cons.injEq] at hr
            obtain ⟨rfl, rfl⟩ := hr
            rw [hs] at h
            cases h
          · by_cases hn : n = 0
            · subst hn; exact .inr rfl
            · exact .inl ⟨step_unfinished h hn, by simp⟩
          · rintro more hm ⟨r, hr⟩ ⟨c, more', hm', e⟩
            obtain ⟨b', t, e', hs⟩ := step_encoded c
            rw [e', List.cons_append, List.cons_append, List.cons.injEq] at e
            obtain ⟨rfl, e⟩ := e
            cases more with
            | nil => exact hm rfl
            | cons d more =>
              have hxx : x = x.take n ++ d :: (more ++ r) := by
                rw [← List.cons_append, hr, List.take_append_drop]
              have hlen : (x.take n).length = n := by simp; omega
              rw [hxx] at h
              have := step_error (x := x.take n) (d := d) (y := more ++ r) (by rw [h, hlen]) (more ++ more')
              have h2 := hs []
              rw [List.append_nil, ← e, List.append_assoc, List.cons_append, this] at h2
              cases h2

/-- **C91.**  What is read from the bytes of a text file, as the specification says. -/
theorem decode_spec (bs : List UInt8) (s : Str) : decodeIgnore bs = s ↔ Decodes bs s := by
  constructor
  · rintro rfl; exact decodes_decode bs
  · intro h
    have hd := decodes_decode bs
    generalize decodeIgnore bs = s' at hd
    induction h generalizing s' with
    | nil =>
      generalize he : ([] : List UInt8) = l at hd
      cases hd with
      | nil => rfl
      | char c _ =>
        obtain ⟨b, t, e, -⟩ := step_encoded c
        rw [e] at he; cases he
      | junk bad _ hb _ _ =>
        have : bad = [] := by
          cases bad with
          | nil => rfl
          | cons => cases he
        subst this
        rcases hb with ⟨-, hb⟩ | hb
        · exact absurd rfl hb
        · cases hb
    | @char c rest s h ih =>
      generalize he : String.utf8EncodeChar c ++ rest = l at hd
      cases hd with
      | nil =>
        obtain ⟨b, t, e, -⟩ := step_encoded c
        rw [e] at he; cases he
      | @char c' rest' s' h' =>
        have h1 : decodeIgnore (String.utf8EncodeChar c ++ rest) = decodeIgnore (String.utf8EncodeChar c' ++ rest') := by rw [he]
        rw [decode_char, decode_char, List.cons.injEq] at h1
        obtain ⟨rfl, -⟩ := h1
        rw [List.append_cancel_left_eq] at he
        subst he
        rw [ih _ h']
      | junk bad hn _ _ _ => exact absurd ⟨rest, he⟩ (hn c)
    | @junk bad rest s hn hb hm h ih =>
      generalize he : bad ++ rest = l at hd
      cases hd with
      | nil =>
        have : bad = [] := by
          cases bad with
          | nil => rfl
          | cons => cases he
        subst this
        rcases hb with ⟨-, hb⟩ | hb
        · exact absurd rfl hb
        · cases hb
      | @char c' rest' s' h' => exact absurd ⟨rest', he.symm⟩ (hn c')
      | @junk bad' rest' _ hn' hb' hm' h' =>
        have hpos : ∀ l : List UInt8, (Unfinished l ∧ l ≠ [] ∨ l.length = 1) → 1 ≤ l.length := by
          rintro l (⟨-, h⟩ | h)
          · exact List.length_pos_of_ne_nil h
          · omega
        rcases List.append_eq_append_iff.1 he with ⟨m, rfl, rfl⟩ | ⟨m, rfl, rfl⟩
        · by_cases hz : m = []
          · subst hz; exact ih _ h'
          · rcases hb' with ⟨hu, -⟩ | hl
            · exact absurd hu (hm m hz ⟨rest', rfl⟩)
            · have := hpos _ hb
              have := List.length_pos_of_ne_nil hz
              rw [List.length_append] at hl; omega
        · by_cases hz : m = []
          · subst hz; exact ih _ h'
          · rcases hb with ⟨hu, -⟩ | hl
            · exact absurd hu (hm' m hz ⟨rest, rfl⟩)
            · have := hpos _ hb'
              have := List.length_pos_of_ne_nil hz
              rw [List.length_append] at hl; omega

/-- **C91.**  Structured files are decoded if and only if they are the bytes of a text. -/
theorem strict_spec (bs : List UInt8) (s : Str) : decodeStrict bs = some s ↔ bs = Utf8 s := by
  constructor
  · generalize hk : bs.length = k
    induction k using Nat.strong_induction_on generalizing bs s with
    | _ k ih =>
      cases bs with
      | nil => intro h; cases h; rfl
      | cons b x =>
        intro h
        rw [decodeStrict, decodeStrictFrom] at h
        cases hs : utf8Step b x with
        | mk o n =>
          rw [hs] at h
          cases o with
          | none => cases h
          | some c =>
            obtain ⟨t, r, rfl, rfl, e⟩ := step_char hs
            simp only [decodeStrictFrom_drop, List.drop_left, Option.map_eq_some_iff] at h
            obtain ⟨s', hs', rfl⟩ := h
            have := ih r.length (by simp at hk; omega) r s' rfl hs'
            rw [Utf8, List.flatMap_cons, e, List.cons_append, this]; rfl
  · rintro rfl
    induction s with
    | nil => rfl
    | cons c s ih =>
      obtain ⟨b, t, e, h⟩ := step_encoded c
      rw [Utf8, List.flatMap_cons, e, List.cons_append, decodeStrict, decodeStrictFrom, h]
      simp only [decodeStrictFrom_drop, List.drop_left]
      rw [show List.flatMap String.utf8EncodeChar s = Utf8 s from rfl, ih]
      rfl

/-! ## Lines -/

theorem splitAt1_append (p : Char → Bool) (u v : Str) (c : Char) (hc : p c = true) :
    splitAt1 p (u ++ c :: v) = splitAt1 p u ++ splitAt1 p v := by
  have hne : ∀ l, splitAt1 p l ≠ [] := by
    intro l
    cases l with
    | nil => simp [splitAt1]
    | cons x l =>
      rw [splitAt1]
      split
      · simp
      · cases splitAt1 p l <;> simp [consHead]
  induction u with
  | nil => simp [splitAt1, hc]
  | cons x u ih =>
    simp only [List.cons_append, splitAt1, ih]
    split
    · rfl
    · cases h : splitAt1 p u with
      | nil => exact absurd h (hne u)
      | cons l ls => rfl

theorem newlines_append (s t : Str) :
    universalNewlines (s ++ '\n' :: t) = universalNewlines s ++ '\n' :: universalNewlines t ∨
    ∃ u, universalNewlines s = u ++ ['\n'] ∧ universalNewlines (s ++ '\n' :: t) = u ++ '\n' :: universalNewlines t := by
  have hcons : ∀ (x : Char) (r s : Str), (universalNewlines (s ++ '\n' :: t) = universalNewlines s ++ '\n' :: universalNewlines t ∨
      ∃ u, universalNewlines s = u ++ ['\n'] ∧ universalNewlines (s ++ '\n' :: t) = u ++ '\n' :: universalNewlines t) →
      universalNewlines r = x :: universalNewlines s →
      universalNewlines (r ++ '\n' :: t) = x :: universalNewlines (s ++ '\n' :: t) →
      (universalNewlines (r ++ '\n' :: t) = universalNewlines r ++ '\n' :: universalNewlines t ∨
      ∃ u, universalNewlines r = u ++ ['\n'] ∧ universalNewlines (r ++ '\n' :: t) = u ++ '\n' :: universalNewlines t) := by
    intro x r s h e1 e2
    rcases h with h | ⟨u, h1, h2⟩
    · exact .inl (by rw [e2, e1, h]; rfl)
    · exact .inr ⟨x :: u, by rw [e1, h1]; rfl, by rw [e2, h2]; rfl⟩
  generalize hk : s.length = k
  induction k using Nat.strong_induction_on generalizing s with
  | _ k ih =>
    cases s with
    | nil => exact .inl (universalNewlines.eq_3 _ _ (by simp) (by simp))
    | cons x s =>
      by_cases hx : x = '\r'
      · subst hx
        cases s with
        | nil => exact .inr ⟨[], rfl, rfl⟩
        | cons y s =>
          by_cases hy : y = '\n'
          · subst hy
            exact hcons '\n' _ s (ih s.length (by simp at hk; omega) s rfl) rfl rfl
          · refine hcons '\n' _ (y :: s) (ih _ (by simp at hk; simp; omega) _ rfl) ?_ ?_
            · rw [universalNewlines.eq_2 _ (by intro z hz; simp only [List.cons.injEq] at hz; exact hy hz.1)]
            · rw [List.cons_append, List.cons_append,
                universalNewlines.eq_2 _ (by intro z hz; simp only [List.cons.injEq] at hz; exact hy hz.1)]
      · refine hcons x _ s (ih _ (by simp at hk; omega) _ rfl) ?_ ?_
        · rw [universalNewlines.eq_3 _ _ (by simp [hx]) (by simp [hx])]
        · rw [List.cons_append, universalNewlines.eq_3 _ _ (by simp [hx]) (by simp [hx])]

/-- The values of a text with a newline in it: those before and those after. -/
theorem values_of_lines (s t : Str) : textValues (s ++ '\n' :: t) = textValues s ++ textValues t := by
  have hv : ∀ u v : Str, ((splitChar '\n' (u ++ '\n' :: v)).filter (fun l => !isEmptyLine l)).map strip =
      ((splitChar '\n' u).filter (fun l => !isEmptyLine l)).map strip ++
      ((splitChar '\n' v).filter (fun l => !isEmptyLine l)).map strip := by
    intro u v
    rw [splitChar, splitAt1_append _ _ _ _ (by rfl), List.filter_append, List.map_append]
    rfl
  simp only [textValues, fileLines]
  rcases newlines_append s t with h | ⟨u, h1, h2⟩
  · rw [h, hv]
  · rw [h1, h2, hv, hv u []]
    have : ((splitChar '\n' []).filter (fun l => !isEmptyLine l)).map strip = [] := by decide
    rw [this, List.append_nil]

/-- **C91.**  Each line of a text file by itself decides its value: bytes that cannot be decoded do not join lines, split them or
change the values of other lines. -/
theorem lines_alone (x y : List UInt8) : byteValues (x ++ 0x0A :: y) = byteValues x ++ byteValues y := by
  have h := junk_left_out x ['\n'] (by simp) y
  rw [show Utf8 ['\n'] = [0x0A] by decide +kernel, List.append_assoc, List.singleton_append, List.append_assoc,
    List.singleton_append] at h
  rw [byteValues, h, values_of_lines]
  rfl

/-- **C91.**  What is written is read again; carriage returns count as newlines. -/
theorem written_text (s : Str) : byteText (encodeUtf8 s) = universalNewlines s ∧ byteValues (encodeUtf8 s) = textValues s ∧
    ('\r' ∉ s → byteText (encodeUtf8 s) = s) := by
  have h : decodeIgnore (encodeUtf8 s) = s := by
    have := text_decoded s []
    rw [List.append_nil] at this
    rw [show encodeUtf8 s = Utf8 s from rfl, this]
    exact List.append_nil s
  refine ⟨by rw [byteText, h], by rw [byteValues, h], fun hr => ?_⟩
  rw [byteText, h]
  have := universalNewlines_id s [] hr
  rw [List.append_nil] at this
  rw [this]
  exact List.append_nil s

/-- **C91.**  A byte order mark at the beginning of a text file becomes part of the first value; the first line is a value even if it
is empty or a comment. -/
theorem byte_order_mark (bs : List UInt8) :
    ∃ v vs, byteValues (0xEF :: 0xBB :: 0xBF :: bs) = ('\uFEFF' :: v) :: vs := by
  have h := text_decoded ['\uFEFF'] bs
  rw [show Utf8 ['\uFEFF'] = [0xEF, 0xBB, 0xBF] by decide +kernel] at h
  simp only [List.cons_append, List.nil_append] at h
  rw [byteValues, h, textValues, fileLines, universalNewlines.eq_3 _ _ (by simp) (by simp), splitChar, splitAt1, if_neg (by decide)]
  obtain ⟨l, ls, e⟩ : ∃ l ls, consHead '\uFEFF' (splitAt1 (fun x => x == '\n') (universalNewlines (decodeIgnore bs))) =
      ('\uFEFF' :: l) :: ls := by
    cases splitAt1 (fun x => x == '\n') (universalNewlines (decodeIgnore bs)) with
    | nil => exact ⟨[], [], rfl⟩
    | cons l ls => exact ⟨l, ls, rfl⟩
  obtain ⟨v, hv⟩ : ∃ v, strip ('\uFEFF' :: l) = '\uFEFF' :: v := by
    unfold strip stripP lstripP rstripP
    rw [List.dropWhile_cons, if_neg (by decide)]
    have hr : ∀ r : Str, ∃ w, ((r ++ ['\uFEFF']).dropWhile isSpace).reverse = '\uFEFF' :: w := by
      intro r
      induction r with
      | nil => exact ⟨[], by decide⟩
      | cons x r ih =>
        rw [List.cons_append, List.dropWhile_cons]
        split
        · exact ih
        · exact ⟨r.reverse ++ [x], by simp⟩
    rw [List.reverse_cons]
    exact hr _
  refine ⟨v, (ls.filter fun l => !isEmptyLine l).map strip, ?_⟩
  rw [e, List.filter_cons_of_pos (by simp [isEmptyLine, hv, startsWith]; rfl), List.map_cons, hv]

/-! ## A file system with bytes -/

/-- What a file of this path shows. -/
def shownText (rel : Path) (contents : Option Bytes) : Option Str :=
  if isStructured (rel.getLastD []) then contents.bind decodeStrict else contents.map decodeIgnore

theorem shownText_file (rel : Path) (n : Str) (bs : Bytes) :
    asText n bs = match shownText (rel ++ [n]) (some bs) with | some s => .file s | none => .broken := by
  unfold asText shownText
  rw [List.getLastD_concat]
  split
  · rfl
  · rfl

theorem filesOf_texts (rel : Path) (es : List (Str × FTree Bytes)) :
    filesOf rel (asTexts.entries es) = (filesOf rel es).map fun f => (f.1, shownText f.1 f.2) := by
  induction es with
  | nil => rfl
  | cons q es ih =>
    obtain ⟨n, x⟩ := q
    cases x with
    | file bs =>
      rw [asTexts.entries, asTexts, shownText_file rel, filesOf, List.map_cons, ← ih]
      cases shownText (rel ++ [n]) (some bs) <;> rfl
    | broken =>
      rw [asTexts.entries, asTexts, filesOf, filesOf, List.map_cons, ← ih]
      simp [shownText]
    | dir es' => rw [asTexts.entries, asTexts, filesOf, filesOf, ih]

mutual
theorem walkNode_texts (rel : Path) (n : Str) (d : FTree Bytes) :
    walkNode rel (asTexts n d) = (walkNode rel d).map fun f => (f.1, shownText f.1 f.2) := by
  cases d with
  | file bs =>
    rw [asTexts, shownText_file []]
    cases shownText ([] ++ [n]) (some bs) <;> rfl
  | broken => rfl
  | dir es => rw [asTexts, walkNode, walkNode, filesOf_texts, walkDirs_texts rel es, List.map_append]
theorem walkDirs_texts (rel : Path) (es : List (Str × FTree Bytes)) :
    walkDirs rel (asTexts.entries es) = (walkDirs rel es).map fun f => (f.1, shownText f.1 f.2) := by
  match es with
  | [] => rfl
  | (n, x) :: es =>
    rw [asTexts.entries, walkDirs, walkDirs, walkDirs_texts rel es, List.map_append]
    congr 1
    split
    · rfl
    · exact walkNode_texts (rel ++ [n]) n x
end

theorem unstructured_contents (lib : Lib) (root rel : Path) (hs : ¬ isStructured (rel.getLastD []) = true)
    (c c' : Option Str) : fileCollections lib root rel c = fileCollections lib root rel c' := by
  have hno : ∀ ext : Str, ext = c!".json" ∨ ext = c!".yaml" → (splitSuffix (rel.getLastD [])).2 ≠ ext := by
    intro ext hext e
    apply hs
    have hsuf : ext <:+ rel.getLastD [] := by
      generalize rel.getLastD [] = name at e
      rw [← e]
      unfold splitSuffix
      dsimp only
      split
      · rename_i stem hst
        split
        · exact List.nil_suffix
        · have := List.takeWhile_append_dropWhile (p := fun x : Char => decide (x ≠ '.')) (l := name.reverse)
          refine ⟨stem.reverse, ?_⟩
          have h2 : name.reverse = name.reverse.takeWhile (fun x => decide (x ≠ '.')) ++ '.' :: stem := by
            rw [← hst]
            conv_lhs => rw [← List.take_append_drop (name.reverse.takeWhile (fun x => decide (x ≠ '.'))).length name.reverse]
            congr 1
            exact (List.prefix_iff_eq_take.1 (List.takeWhile_prefix _)).symm
          have h3 := congrArg List.reverse h2
          rw [List.reverse_reverse, List.reverse_append, List.reverse_cons, List.append_assoc] at h3
          exact h3.symm
      · exact List.nil_suffix
    rw [isStructured, Bool.or_eq_true, List.isSuffixOf_iff_suffix, List.isSuffixOf_iff_suffix]
    rcases hext with rfl | rfl
    · exact .inl hsuf
    · exact .inr hsuf
  unfold fileCollections
  dsimp only
  split
  · rfl
  · rw [if_neg (by
      rintro (e | e)
      · exact hno _ (.inl rfl) e
      · exact hno _ (.inr rfl) e), if_neg (by
      rintro (e | e)
      · exact hno _ (.inl rfl) e
      · exact hno _ (.inr rfl) e)]

theorem fileCollections_shown (lib : Lib) (root rel : Path) (contents : Option Bytes) :
    fileCollections lib root rel (shownText rel contents) = byteCollections lib root rel contents := by
  unfold byteCollections
  by_cases hs : isStructured (rel.getLastD []) = true
  · rw [shownText, if_pos hs]
  · exact unstructured_contents lib root rel hs _ _

theorem texts_entry (es : List (Str × FTree Bytes)) (n : Str) :
    FTree.entry (asTexts.entries es) n = (FTree.entry es n).map (asTexts n) := by
  induction es with
  | nil => rfl
  | cons q es ih =>
    obtain ⟨m, x⟩ := q
    simp only [asTexts.entries, FTree.entry]
    split
    · rename_i h; subst h; rfl
    · exact ih

theorem texts_at (fs : FTree Bytes) (n : Str) (p : Path) :
    (asTexts n fs).at p = (fs.at p).map (asTexts ((n :: p).getLastD [])) := by
  induction p generalizing fs n with
  | nil => rfl
  | cons m p ih =>
    cases fs with
    | dir es =>
      simp only [asTexts, FTree.at, texts_entry]
      cases FTree.entry es m with
      | none => rfl
      | some x =>
        simp only [Option.map_some]
        rw [ih]
        cases p <;> rfl
    | file bs =>
      rw [asTexts, shownText_file []]
      cases shownText ([] ++ [n]) (some bs) <;> rfl
    | broken => rfl

/-- **C91.**  The collections on a disk with bytes are those on the disk with texts: structured files that are not valid are left
out. -/
theorem bytes_collections (lib : Lib) (fs : FTree Bytes) (roots : RootMap) :
    byteRootMapColls lib fs roots = rootMapColls lib (texts fs) roots := by
  have hitem : ∀ item, byteRootItemMap lib fs item = rootItemMap lib (texts fs) item := by
    intro item
    cases item with
    | dict d => rfl
    | path p =>
      have hat := texts_at fs [] p
      simp only [byteRootItemMap, rootItemMap, texts]
      cases hf : fs.at p with
      | none => rw [hf] at hat; rw [hat]; rfl
      | some d =>
        rw [hf] at hat
        simp only [Option.map_some] at hat
        cases d with
        | file bs =>
          rw [hat, asTexts, shownText_file []]
          cases shownText ([] ++ [([] :: p).getLastD []]) (some bs) <;> rfl
        | broken => rw [hat]; rfl
        | dir es =>
          rw [hat]
          simp only [asTexts]
          simp only [byteDirMap, dirMap, hf, hat, walkNode_texts, List.foldl_map, fileCollections_shown]
  simp only [byteRootMapColls, rootMapColls, rootMapPairs, hitem]

/-- **C91.**  A text file is read with the bytes left out that cannot be decoded. -/
theorem bytes_read (fs : FTree Bytes) (p : Path) (hp : isStructured (p.getLastD []) = false) :
    byteRead fs p = (texts fs).read p := by
  have hat := texts_at fs [] p
  have hl : ([] :: p).getLastD [] = p.getLastD ([] : Str) := by cases p <;> rfl
  simp only [byteRead, FTree.read, texts, hat]
  cases fs.at p with
  | none => rfl
  | some d =>
    cases d with
    | dir es => rfl
    | broken => rfl
    | file bs => simp only [Option.map_some, asTexts, asText, hl, hp, Bool.false_eq_true, if_false]

/-- **C90, C91.**  A disk with links and bytes: its collections are those of the disk with the links replaced and the files
decoded. -/
theorem disk_collections (lib : Lib) (fs : LNode Bytes) (h : Proper fs) (roots : RootMap)
    (hroots : ∀ r ∈ roots, ∀ p, RootItem.path p ∈ r.2 → c!".." ∉ p) :
    ∃ deep, ∀ depth, deep ≤ depth → lRootMapColls lib fs depth roots = rootMapColls lib (texts (withoutLinks fs)) roots := by
  obtain ⟨deep, hd⟩ := links_collections lib fs h roots hroots
  exact ⟨deep, fun depth hle => by rw [hd depth hle, bytes_collections]⟩

/-- **C90, C91.**  And so are the texts read. -/
theorem disk_read (fs : LNode Bytes) (h : Proper fs) (p : Path) (hd : c!".." ∉ p)
    (hp : isStructured (p.getLastD []) = false) : lRead fs p = (texts (withoutLinks fs)).read p := by
  rw [lRead, links_read fs h p hd, ← bytes_read _ _ hp, byteRead]

/-! ### Examples -/

/-- Valid text; Latin-1; an unfinished and a broken character; an overlong form; a surrogate; too large. -/
example : decodeIgnore [0xE2, 0x82, 0xAC, 0x41, 0xF0, 0x9F, 0x98, 0x80] = c!"€A😀" ∧
    decodeIgnore [0x63, 0x61, 0x66, 0xE9] = c!"caf" ∧ decodeIgnore [0xE2, 0x82, 0x42, 0xF0, 0x9F, 0x98] = c!"B" ∧
    decodeIgnore [0xC0, 0xAF, 0x41] = c!"A" ∧ decodeIgnore [0xED, 0xA0, 0x80, 0x41] = c!"A" ∧
    decodeIgnore [0xF4, 0x90, 0x80, 0x80] = [] := by decide +kernel

example : decodeStrict [0x63, 0x61, 0x66, 0xE9] = none ∧ decodeStrict [0x63, 0xC3, 0xA9] = some c!"cé" := by decide +kernel

/-- What is left out is as long as possible. -/
example : Unfinished [0xE2, 0x82] ∧ Decodes [0xE2, 0x82, 0x42] c!"B" :=
  ⟨⟨'€', [0xAC], by simp, by decide +kernel⟩, (decode_spec _ _).1 (by decide +kernel)⟩

/-- A comment after a byte order mark is a value. -/
example : byteValues ([0xEF, 0xBB, 0xBF] ++ encodeUtf8 c!"# colours\nred\n# more\nblue") =
    [c!"\uFEFF# colours", c!"red", c!"blue"] := by decide +kernel

/-- The collections, and an error for the link to nothing. -/
def linkCfg : MgrCfg Nat := ⟨demoLib, c!"__", [([], [.path [c!"w"]])], Demo.rng⟩

example : (rootMapColls linkCfg.lib (texts (withoutLinks linkFs)) linkCfg.roots).map (·.1) =
    [c!"friendos", c!"wow", c!"gone", c!"secret", c!"animals/internet", c!"wildly/wilderness",
      c!"wildly/back/internet"] := by decide +kernel

example : seen (Mgr.getValues linkCfg c!"friendos" (newMgr (texts (withoutLinks linkFs)) 0)) =
    some (.ok [⟨c!"catto", none⟩, ⟨c!"doggo", none⟩]) ∧
    seen (Mgr.getValues linkCfg c!"gone" (newMgr (texts (withoutLinks linkFs)) 0)) = some (.error .os) ∧
    seen (Mgr.getValues linkCfg c!"*" (newMgr (texts (withoutLinks linkFs)) 0)) = some (.error .os) := by decide +kernel


/-- A structured file that is not valid, a text file that is not valid. -/
def byteFs : FTree Bytes :=
  .dir [(c!"w", .dir [(c!"bad.yaml", .file ([0xE9] ++ encodeUtf8 c!"a: [x]")), (c!"good.yaml", .file (encodeUtf8 c!"a: [x]")),
    (c!"latin.txt", .file [0x63, 0x61, 0x66, 0xE9, 0x0A, 0x74, 0x65, 0x61])])]

/-- A library that reads every text as the same document. -/
def oneDocLib : Lib := { demoLib with yaml := fun _ => some (.dict [(some c!"a", .list [.str c!"x"])]) }

example : byteRootMapColls oneDocLib byteFs [([], [.path [c!"w"]])] =
    [(c!"a", .items [⟨c!"x", none⟩]), (c!"latin", .file [c!"w", c!"latin.txt"])] ∧
    byteRead byteFs [c!"w", c!"latin.txt"] = some c!"caf\ntea" := by decide +kernel

end Verif.Props
