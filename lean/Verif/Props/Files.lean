import Verif.Model.Manager
import Verif.Proofs.Files
/-!
# Properties of wildcard files (C32, C33, C36, C52, C53)
-/

namespace Verif.Props
open Verif Spec

/-! ## C32 Text wildcard files -/

/-- C32: the values of a text file are its lines, stripped, in order, without blank lines and
comments. -/
theorem text_file_values (contents : Str) (ls vs : List Str) (h1 : Lines contents ls)
    (h2 : TextEntries ls vs) : textValues contents = vs := by
  rw [textValues, fileLines_eq h1]; exact textEntries_eq h2

/-- C32: every text has lines and entries, so the previous theorem covers all files. -/
theorem text_file_values_total (contents : Str) :
    ∃ ls vs, Lines contents ls ∧ TextEntries ls vs := by
  obtain ⟨ls, h1⟩ := lines_total contents
  obtain ⟨vs, h2⟩ := textEntries_total ls
  exact ⟨ls, vs, h1, h2⟩

example : textValues c!" red \r\n# no\n\n\tdark blue\r" = [c!"red", c!"dark blue"] := by decide +kernel

example : Lines c!" red \r\n# no\n" [c!" red ", c!"# no", []] ∧
    TextEntries [c!" red ", c!"# no", []] [c!"red"] := by
  refine ⟨.crlf (l := c!" red ") (by decide) (by decide) (.nl (l := c!"# no") (by decide) (by decide)
    (.last (by decide) (by decide))), ?_⟩
  refine .entry (t := c!"red") ⟨c!" ", c!" ", rfl, ?_, ?_, ?_, ?_⟩ (by decide) (by decide)
    (.comment (t := c!" no") ⟨[], [], rfl, ?_, ?_, ?_, ?_⟩ (.blank ?_ .nil)) <;>
  simp [Blank] <;> decide

/-! ## C33 Text collections read their own writes -/

/-- What can be done with a text collection. -/
inductive TextOp where
  | read
  | write (contents : Str)

/-- Do it; the results of the reads in order. -/
def runTextOps {R : Type} (id : Nat) : List TextOp → M (Mgr R) (List (List Str))
  | [] => pure []
  | .read :: ops => do
    let vs ← Mgr.textGetValues id
    let rest ← runTextOps id ops
    return vs :: rest
  | .write c :: ops => do
    Mgr.textWrite id c
    runTextOps id ops

/-- The results expected if every read sees the file as it was written last. -/
def freshReads (cur : Str) : List TextOp → List (List Str)
  | [] => []
  | .read :: ops => textValues cur :: freshReads cur ops
  | .write c :: ops => freshReads c ops

theorem entry_setEntry {α : Type} (es : List (Str × FTree α)) (n : Str) (x : FTree α) :
    FTree.entry (FTree.setEntry es n x) n = some x := by
  induction es with
  | nil => simp [FTree.setEntry, FTree.entry]
  | cons p es ih =>
    obtain ⟨m, y⟩ := p
    simp only [FTree.setEntry]
    split
    · rename_i h; simp [FTree.entry, h]
    · rename_i h; simp only [FTree.entry, if_neg h]; exact ih

theorem write_read {α : Type} {fs fs' : FTree α} {c : α} {p : Path} (h : fs.write c p = some fs') :
    fs'.read p = some c := by
  have key : ∀ (p : Path) (fs fs' : FTree α), fs.write c p = some fs' → fs'.at p = some (.file c) := by
    intro p
    induction p with
    | nil =>
      intro fs fs' h
      cases fs with
      | file _ => simp [FTree.write] at h; subst h; rfl
      | dir _ => simp [FTree.write] at h
      | broken => simp [FTree.write] at h
    | cons n p ih =>
      intro fs fs' h
      cases fs with
      | file _ => simp [FTree.write] at h
      | broken => simp [FTree.write] at h
      | dir es =>
        simp only [FTree.write] at h
        cases he : FTree.entry es n with
        | none =>
          rw [he] at h
          simp only at h
          split at h
          · rename_i hp
            simp only [List.isEmpty_iff] at hp
            subst hp
            simp only [Option.some.injEq] at h
            subst h
            simp only [FTree.at, entry_setEntry]
          · simp at h
        | some m =>
          rw [he] at h
          simp only [Option.map_eq_some_iff] at h
          obtain ⟨m', hm, rfl⟩ := h
          simp only [FTree.at, entry_setEntry]
          exact ih m m' hm
  simp [FTree.read, key p fs fs' h]

theorem write_again {α : Type} {fs : FTree α} {c c' : α} {p : Path} (h : fs.read p = some c) :
    ∃ fs', fs.write c' p = some fs' := by
  have key : ∀ (p : Path) (fs : FTree α), fs.at p = some (.file c) → ∃ fs', fs.write c' p = some fs' := by
    intro p
    induction p with
    | nil => intro fs h; simp [FTree.at] at h; subst h; exact ⟨_, rfl⟩
    | cons n p ih =>
      intro fs h
      cases fs with
      | file _ => simp [FTree.at] at h
      | broken => simp [FTree.at] at h
      | dir es =>
        simp only [FTree.at] at h
        cases he : FTree.entry es n with
        | none => rw [he] at h; simp at h
        | some m =>
          rw [he] at h
          obtain ⟨m', hm⟩ := ih m h
          exact ⟨.dir (FTree.setEntry es n m'), by simp only [FTree.write, he, hm, Option.map_some]⟩
  apply key
  unfold FTree.read at h
  split at h
  · simp at h; subst h; assumption
  · simp at h

/-- C33: in every history of reads and writes through a collection whose file exists, every read
returns the values of what the file contains: what was written last, or what was there at the
beginning. The collection starts with nothing cached or with the values of the file cached. -/
theorem reads_own_writes {R : Type} (ops : List TextOp) (id : Nat) (s : Mgr R) (o : TextObj)
    (cur : Str) (ho : s.heap[id]? = some o) (hf : s.fs.read o.path = some cur)
    (hc : o.cache = none ∨ o.cache = some (textValues cur)) :
    ∃ s', runTextOps id ops s = .ok (freshReads cur ops) s' := by
  induction ops generalizing s o cur with
  | nil => exact ⟨s, rfl⟩
  | cons op ops ih =>
    have hlt : id < s.heap.length := by
      rw [List.getElem?_eq_some_iff] at ho; exact ho.1
    cases op with
    | read =>
      rcases hc with hc | hc
      · obtain ⟨s', e⟩ := ih { s with heap := s.heap.set id ⟨o.path, some (textValues cur)⟩ }
          ⟨o.path, some (textValues cur)⟩ cur (by simp [hlt]) hf (.inr rfl)
        refine ⟨s', ?_⟩
        simp only [runTextOps, freshReads, bind, M.bind, Mgr.textGetValues, ho, hc, hf, e, pure, M.pure]
      · obtain ⟨s', e⟩ := ih s o cur ho hf (.inr hc)
        refine ⟨s', ?_⟩
        simp only [runTextOps, freshReads, bind, M.bind, Mgr.textGetValues, ho, hc, e, pure, M.pure]
    | write c =>
      obtain ⟨fs', hw⟩ := write_again (c' := c) hf
      obtain ⟨s', e⟩ := ih { s with fs := fs', heap := s.heap.set id ⟨o.path, none⟩ }
          ⟨o.path, none⟩ c (by simp [hlt]) (write_read hw) (.inl rfl)
      refine ⟨s', ?_⟩
      simp only [runTextOps, freshReads, bind, M.bind, Mgr.textWrite, ho, hw, e]

/-- A file that is read, rewritten and read again. -/
example : ∃ s', runTextOps 0 [.read, .write c!"b", .read, .read]
    ({ newMgr (.dir [(c!"x.txt", .file c!"a")]) () with heap := [⟨[c!"x.txt"], none⟩] }) =
      .ok [[c!"a"], [c!"b"], [c!"b"]] s' :=
  reads_own_writes _ 0 _ ⟨[c!"x.txt"], none⟩ c!"a" rfl rfl (.inl rfl)

/-- Two collections of the same file do not see each other's writes: the second one goes on
returning what it has cached. -/
theorem other_collection_is_stale : ∃ s',
    (do
      let a ← Mgr.textGetValues 1
      Mgr.textWrite 0 c!"b"
      let b ← Mgr.textGetValues 1
      let c ← Mgr.textGetValues 0
      return [a, b, c] : M (Mgr Unit) (List (List Str)))
    ({ newMgr (.dir [(c!"x.txt", .file c!"a")]) () with
        heap := [⟨[c!"x.txt"], none⟩, ⟨[c!"x.txt"], none⟩] }) =
      .ok [[c!"a"], [c!"a"], [c!"b"]] s' := ⟨_, rfl⟩

/-! ## C36 Structured wildcard files -/

/-- C36: the collections of a mapping are its lists and strings, named by their key paths, in
document order. -/
theorem structured_collections (lib : Lib) (stem : Str) (d : List (Option Str × J))
    (ls : List (List Str × List J)) (out : List (Str × List Item))
    (h1 : KeyLists d ls) (h2 : Collections lib ls out) : docCollections lib stem (.dict d) = out := by
  rw [docCollections, parseDict_keyLists h1 []]; exact collections_readLists h2

/-- C36: every mapping is of this form. -/
theorem structured_collections_total (lib : Lib) (d : List (Option Str × J)) :
    ∃ ls out, KeyLists d ls ∧ Collections lib ls out := by
  obtain ⟨ls, h1⟩ := keyLists_total d
  obtain ⟨out, h2⟩ := collections_total lib ls
  exact ⟨ls, out, h1, h2⟩

/-- C36: a list fails to load exactly if it holds a dictionary whose weight is not a number. -/
theorem list_fails_iff (lib : Lib) (l : List J) : parseList lib l = none ↔ BadWeight lib l := by
  constructor
  · intro h
    rcases entries_or_bad lib l with ⟨is, he⟩ | hb
    · rw [entries_parseList he] at h; simp at h
    · exact hb
  · exact badWeight_parseList

/-- C36: what one key contributes does not depend on the other keys. -/
theorem keys_are_independent (lib : Lib) (stem : Str) (d d' : List (Option Str × J)) :
    docCollections lib stem (.dict (d ++ d')) =
      docCollections lib stem (.dict d) ++ docCollections lib stem (.dict d') := by
  simp only [docCollections]
  generalize ([] : List Str) = pre
  induction d with
  | nil => simp [parseDict]
  | cons p d ih =>
    obtain ⟨k, v⟩ := p
    cases k with
    | none => simp only [List.cons_append, parseDict]; exact ih
    | some k => simp only [List.cons_append, parseDict, ih, List.append_assoc]

/-- The strings among the entries of a list, as items. -/
def stringEntries (l : List J) : List Item :=
  l.filterMap fun j => match j with | .str s => some ⟨s, none⟩ | _ => none

/-- C36: a document that is a list is one collection of its strings, named by the file, unless it
has none. -/
theorem flat_document (lib : Lib) (stem : Str) (l : List J) :
    (stringEntries l = [] → docCollections lib stem (.list l) = []) ∧
    (stringEntries l ≠ [] → docCollections lib stem (.list l) = [(stem, stringEntries l)]) := by
  have h1 : (jStrings l).map (fun s => (⟨s, none⟩ : Item)) = stringEntries l := by
    induction l with
    | nil => rfl
    | cons j l ih =>
      simp only [stringEntries] at ih
      cases j <;> simp [jStrings, stringEntries, ih]
  have h2 : jStrings l = [] ↔ stringEntries l = [] := by rw [← h1, List.map_eq_nil_iff]
  simp only [docCollections, List.isEmpty_iff, h2, h1]
  exact ⟨fun h => if_pos h, fun h => if_neg h⟩

/-- A library for the examples: decimal digits are digits and `2` and `3` are numbers. -/
def demoLib : Lib where
  isDigit c := c == '2' || c == '3'
  float s := if s = c!"2" then some 2 else if s = c!"3" then some 3 else none
  strOf _ := []
  json _ := none
  yaml _ := none

/-- The document `{"a": {"b": ["2::x", "y"], "c": 5}, 7: ["q"], "d": [{"weight": []}], "e": "z"}`. -/
def demoDoc : List (Option Str × J) :=
  [(some c!"a", .dict [(some c!"b", .list [.str c!"2::x", .str c!"y"]), (some c!"c", .num 5)]),
   (none, .list [.str c!"q"]),
   (some c!"d", .list [.dict [(some c!"weight", .list [])]]),
   (some c!"e", .str c!"z")]

example : docCollections demoLib c!"f" (.dict demoDoc) =
    [(c!"a/b", [⟨c!"x", some 2⟩, ⟨c!"y", none⟩]), (c!"e", [⟨c!"z", none⟩])] := by decide +kernel

example : KeyLists demoDoc
    [([c!"a", c!"b"], [.str c!"2::x", .str c!"y"]), ([c!"d"], [.dict [(some c!"weight", .list [])]]),
     ([c!"e"], [.str c!"z"])] :=
  .dict (.list (by simp) (.num .nil)) (.otherKey (.list (by simp) (.str (by simp) .nil)))

/-! ## C52 Names of files in a directory -/

/-- `Visible d rel c`: below the directory `d` there is a file at the relative path `rel` with
contents `c` (`none` if it cannot be opened), in no directory whose name starts with a dot. -/
inductive Visible : FNode → Path → Option Str → Prop
  | file {es n c} : (n, .file c) ∈ es → Visible (.dir es) [n] (some c)
  | broken {es n} : (n, .broken) ∈ es → Visible (.dir es) [n] none
  | sub {es n x rel c} : (n, x) ∈ es → n.head? ≠ some '.' → Visible x rel c →
      Visible (.dir es) (n :: rel) c

theorem mem_filesOf (rel : Path) (es : List (Str × FNode)) (p : Path) (c : Option Str) :
    (p, c) ∈ filesOf rel es ↔ ∃ n, (n, (match c with | some t => FTree.file t | none => .broken)) ∈ es ∧ p = rel ++ [n] := by
  induction es with
  | nil => simp [filesOf]
  | cons q es ih =>
    obtain ⟨n, x⟩ := q
    cases x with
    | file c' =>
      simp only [filesOf, List.mem_cons, ih, Prod.mk.injEq]
      constructor
      · rintro (⟨rfl, rfl⟩ | ⟨m, hm, rfl⟩)
        · exact ⟨n, .inl ⟨rfl, rfl⟩, rfl⟩
        · exact ⟨m, .inr hm, rfl⟩
      · rintro ⟨m, ⟨rfl, h⟩ | hm, rfl⟩
        · cases c with
          | none => cases h
          | some t => cases h; exact .inl ⟨rfl, rfl⟩
        · exact .inr ⟨m, hm, rfl⟩
    | broken =>
      simp only [filesOf, List.mem_cons, ih, Prod.mk.injEq]
      constructor
      · rintro (⟨rfl, rfl⟩ | ⟨m, hm, rfl⟩)
        · exact ⟨n, .inl ⟨rfl, rfl⟩, rfl⟩
        · exact ⟨m, .inr hm, rfl⟩
      · rintro ⟨m, ⟨rfl, h⟩ | hm, rfl⟩
        · cases c with
          | none => exact .inl ⟨rfl, rfl⟩
          | some t => cases h
        · exact .inr ⟨m, hm, rfl⟩
    | dir _ =>
      simp only [filesOf, ih, List.mem_cons, Prod.mk.injEq]
      constructor
      · rintro ⟨m, hm, rfl⟩; exact ⟨m, .inr hm, rfl⟩
      · rintro ⟨m, ⟨-, h⟩ | hm, rfl⟩
        · cases c <;> cases h
        · exact ⟨m, hm, rfl⟩

theorem hidden_iff (n : Str) : startsWith n c!"." = true ↔ n.head? = some '.' := by
  rw [startsWith_iff]
  constructor
  · rintro ⟨t, rfl⟩; rfl
  · intro h; cases n with
    | nil => simp at h
    | cons c n => simp at h; subst h; exact ⟨n, rfl⟩

mutual
theorem mem_walkNode : ∀ (x : FNode) (rel p : Path) (c : Option Str),
    (p, c) ∈ walkNode rel x ↔ ∃ q, Visible x q c ∧ p = rel ++ q
  | .file _, rel, p, c => by
    simp only [walkNode, List.not_mem_nil, false_iff]
    rintro ⟨q, h, -⟩; cases h
  | .broken, rel, p, c => by
    simp only [walkNode, List.not_mem_nil, false_iff]
    rintro ⟨q, h, -⟩; cases h
  | .dir es, rel, p, c => by
    simp only [walkNode, List.mem_append, mem_filesOf, mem_walkDirs es rel p c]
    constructor
    · rintro (⟨n, hn, rfl⟩ | ⟨n, x, hm, hh, q, hq, rfl⟩)
      · cases c with
        | some t => exact ⟨[n], .file hn, rfl⟩
        | none => exact ⟨[n], .broken hn, rfl⟩
      · exact ⟨n :: q, .sub hm hh hq, by simp⟩
    · rintro ⟨q, h, rfl⟩
      cases h with
      | file hn => exact .inl ⟨_, hn, rfl⟩
      | broken hn => exact .inl ⟨_, hn, rfl⟩
      | sub hm hh hq => exact .inr ⟨_, _, hm, hh, _, hq, by simp⟩
theorem mem_walkDirs : ∀ (es : List (Str × FNode)) (rel p : Path) (c : Option Str),
    (p, c) ∈ walkDirs rel es ↔
      ∃ n x, (n, x) ∈ es ∧ n.head? ≠ some '.' ∧ ∃ q, Visible x q c ∧ p = rel ++ [n] ++ q
  | [], rel, p, c => by simp [walkDirs]
  | (n, x) :: es, rel, p, c => by
    simp only [walkDirs, List.mem_append, mem_walkDirs es rel p c]
    constructor
    · rintro (h | ⟨m, y, hm, h⟩)
      · split at h
        · simp at h
        · rename_i hn
          rw [hidden_iff] at hn
          obtain ⟨q, hq, e⟩ := (mem_walkNode x (rel ++ [n]) p c).1 h
          exact ⟨n, x, by simp, hn, q, hq, e⟩
      · exact ⟨m, y, by simp [hm], h⟩
    · rintro ⟨m, y, hm, hh, q, hq, e⟩
      rcases List.mem_cons.1 hm with e' | hm
      · simp only [Prod.mk.injEq] at e'
        obtain ⟨rfl, rfl⟩ := e'
        left
        rw [if_neg (by rw [hidden_iff]; exact hh)]
        exact (mem_walkNode _ _ _ _).2 ⟨q, hq, e⟩
      · exact .inr ⟨m, y, hm, hh, q, hq, e⟩
end

/-- C52: the files looked at are exactly those in no hidden directory. -/
theorem walk_finds (d : FNode) (rel : Path) (c : Option Str) :
    (rel, c) ∈ walkNode [] d ↔ Visible d rel c := by
  rw [mem_walkNode]; simp

/-- The suffix of a file name. -/
theorem splitSuffix_of (stem ext : Str) (hs : stem ≠ []) (he : ext ≠ []) (hd : '.' ∉ ext) :
    splitSuffix (stem ++ '.' :: ext) = (stem, '.' :: ext) := by
  have hrev : (stem ++ '.' :: ext).reverse = ext.reverse ++ '.' :: stem.reverse := by simp
  have htake : (ext.reverse ++ '.' :: stem.reverse).takeWhile (· ≠ '.') = ext.reverse := by
    rw [List.takeWhile_append_of_pos]
    · simp
    · intro x hx
      simp only [decide_not, Bool.not_eq_eq_eq_not, Bool.not_true, decide_eq_false_iff_not]
      exact fun e => hd (e ▸ List.mem_reverse.1 hx)
  unfold splitSuffix
  dsimp only
  rw [hrev, htake]
  simp [hs, he]

/-- C52: a text file in the directory `dirs` (seen from the root) is the collection named by its
path without `.txt`. -/
theorem text_file_name (lib : Lib) (root dirs : Path) (stem : Str) (contents : Option Str) (hs : stem ≠ []) :
    fileCollections lib root (dirs ++ [stem ++ c!".txt"]) contents =
      [(List.intercalate ['/'] (dirs ++ [stem]), .file (root ++ (dirs ++ [stem ++ c!".txt"])))] := by
  have e := splitSuffix_of stem c!"txt" hs (by simp) (by decide)
  simp only [fileCollections, wildcardFileName, List.getLastD_concat, e, if_true, List.getLast?_concat,
    List.dropLast_concat, pyJoin_eq_intercalate]

/-- C52: files with other suffixes are ignored. -/
theorem other_files_ignored (lib : Lib) (root rel : Path) (contents : Option Str)
    (h : (splitSuffix (rel.getLastD [])).2 ∉ [c!".txt", c!".json", c!".yaml"]) :
    fileCollections lib root rel contents = [] := by
  simp only [List.mem_cons, List.not_mem_nil, or_false, not_or] at h
  simp only [fileCollections, h.1, h.2.1, h.2.2, if_false, or_self]

example : Visible (.dir [(c!"d", .dir [(c!"a.txt", .file c!"x")]), (c!".git", .dir [])]) [c!"d", c!"a.txt"] (some c!"x") :=
  .sub (x := .dir [(c!"a.txt", .file c!"x")]) (by simp) (by simp) (.file (by simp))

example : (dirMap demoLib (.dir [(c!"d", .dir [(c!"a.txt", .file c!"x")]),
    (c!".git", .dir [(c!"b.txt", .file c!"y")])]) []) = [(c!"d/a", .file [c!"d", c!"a.txt"])] := by
  decide +kernel

/-! ## C53 Names of collections in structured files -/

/-- `d` is `stem` with a suffix: a dot that is not at the beginning, and something without a dot after
it. -/
def HasSuffix (d stem : Str) : Prop := ∃ ext, d = stem ++ '.' :: ext ∧ stem ≠ [] ∧ ext ≠ [] ∧ '.' ∉ ext

/-- The path `named` that names are made from, for the directory path `dirs`: the same, but the last
directory loses its suffix if it has one. -/
inductive NamedAs : Path → Path → Prop
  | root : NamedAs [] []
  | plain {up d} : (∀ s, ¬ HasSuffix d s) → NamedAs (up ++ [d]) (up ++ [d])
  | dotted {up d s} : HasSuffix d s → NamedAs (up ++ [d]) (up ++ [s])

theorem splitSuffix_none {d : Str} (h : ∀ s, ¬ HasSuffix d s) : (splitSuffix d).1 = d := by
  unfold splitSuffix
  dsimp only
  split
  · rename_i stem h1
    split
    · rfl
    · rename_i h2
      exfalso
      have h3 := List.takeWhile_append_dropWhile (p := (· ≠ '.')) (l := d.reverse)
      have h4 : d.reverse.drop (d.reverse.takeWhile (· ≠ '.')).length = d.reverse.dropWhile (· ≠ '.') := by
        conv => lhs; arg 2; rw [← h3]
        exact List.drop_left
      rw [h4] at h1
      rw [h1] at h3
      simp only [List.isEmpty_iff, Bool.or_eq_true, not_or] at h2
      refine h stem.reverse ⟨(d.reverse.takeWhile (· ≠ '.')).reverse, ?_, by simpa using h2.1, by
        simpa using h2.2, ?_⟩
      · have := congrArg List.reverse h3
        rw [List.reverse_reverse] at this
        exact this.symm.trans (by rw [List.reverse_append, List.reverse_cons, List.append_assoc]; rfl)
      · intro hm
        have hall := List.all_takeWhile (p := fun c : Char => decide (c ≠ '.')) (l := d.reverse)
        have := List.all_eq_true.1 hall _ (List.mem_reverse.1 hm)
        simp at this
  · rfl

theorem wildcardFileName_named {dirs named : Path} (h : NamedAs dirs named) :
    wildcardFileName dirs = List.intercalate ['/'] named := by
  cases h with
  | root => rfl
  | plain hs => simp [wildcardFileName, splitSuffix_none hs, pyJoin_eq_intercalate]
  | dotted hs =>
    obtain ⟨ext, rfl, h1, h2, h3⟩ := hs
    simp [wildcardFileName, splitSuffix_of _ _ h1 h2 h3, pyJoin_eq_intercalate]

/-- Every directory path is covered. -/
theorem namedAs_total (dirs : Path) : ∃ named, NamedAs dirs named := by
  rcases List.eq_nil_or_concat dirs with rfl | ⟨up, d, rfl⟩
  · exact ⟨_, .root⟩
  · rw [List.concat_eq_append]
    by_cases h : ∃ s, HasSuffix d s
    · obtain ⟨s, hs⟩ := h
      exact ⟨_, .dotted hs⟩
    · exact ⟨_, .plain fun s hs => h ⟨s, hs⟩⟩

/-- **C53** A JSON or YAML file in the directory `dirs` contributes the collections of its document, with
the path of the directory in front; of the last directory in this path a suffix is dropped. -/
theorem structured_file_names (lib : Lib) (root dirs named : Path) (stem ext contents : Str) (doc : J)
    (hs : stem ≠ []) (hn : NamedAs dirs named) (hdirs : ∀ d ∈ dirs, d ≠ [])
    (hdoc : (ext = c!"json" ∧ lib.json contents = some doc) ∨
      (ext = c!"yaml" ∧ lib.yaml contents = some doc)) :
    fileCollections lib root (dirs ++ [stem ++ '.' :: ext]) (some contents) =
      (docCollections lib stem doc).map fun q =>
        (if named = [] then q.1 else List.intercalate ['/'] named ++ '/' :: q.1, .items q.2) := by
  have hext : ext ≠ [] ∧ '.' ∉ ext := by
    rcases hdoc with ⟨rfl, -⟩ | ⟨rfl, -⟩ <;> decide
  have e := splitSuffix_of stem ext hs hext.1 hext.2
  have hname := wildcardFileName_named hn
  have hnamed : ∀ d ∈ named, d ≠ [] := by
    cases hn with
    | root => simp
    | plain _ => exact hdirs
    | dotted h =>
      intro x hx
      rcases List.mem_append.1 hx with hx | hx
      · exact hdirs x (by simp [hx])
      · obtain ⟨_, -, h1, -⟩ := h
        rw [List.mem_singleton.1 hx]; exact h1
  simp only [fileCollections, List.getLastD_concat, e, List.dropLast_concat, hname]
  have hpre : ∀ name : Str, (if (List.intercalate ['/'] named).isEmpty then List.intercalate ['/'] named
      else List.intercalate ['/'] named ++ ['/']) ++ name =
      if named = [] then name else List.intercalate ['/'] named ++ '/' :: name := by
    intro name
    by_cases hz : named = []
    · subst hz; simp
    · have hne : (List.intercalate ['/'] named).isEmpty = false := by
        match named, hz with
        | x :: r, _ =>
          have hx := hnamed x (by simp)
          rw [← pyJoin_eq_intercalate]
          cases r with
          | nil => simpa [pyJoin] using hx
          | cons y r => simp [pyJoin]
      simp [hz, hne]
  rcases hdoc with ⟨rfl, h⟩ | ⟨rfl, h⟩
  · rw [if_neg (by decide), if_pos (.inl rfl)]
    simp only [Option.bind_some, if_neg (show ¬ c!".json" = c!".yaml" by decide), h, hpre]
  · rw [if_neg (by decide), if_pos (.inr rfl)]
    simp only [Option.bind_some, if_true, h, hpre]

/-- **C53** A structured file that cannot be opened contributes nothing. -/
theorem structured_file_broken (lib : Lib) (root dirs : Path) (stem ext : Str) (hs : stem ≠ [])
    (he : ext = c!"json" ∨ ext = c!"yaml") :
    fileCollections lib root (dirs ++ [stem ++ '.' :: ext]) none = [] := by
  have hext : ext ≠ [] ∧ '.' ∉ ext := by rcases he with rfl | rfl <;> decide
  have e := splitSuffix_of stem ext hs hext.1 hext.2
  rcases he with rfl | rfl <;> simp [fileCollections, e]

/-- Non-vacuity: both kinds of directory. -/
example : NamedAs [c!"a.b", c!"c"] [c!"a.b", c!"c"] ∧ NamedAs [c!"a", c!"v1.5"] [c!"a", c!"v1"] := by
  refine ⟨.plain (up := [c!"a.b"]) (d := c!"c") ?_,
    .dotted (up := [c!"a"]) ⟨c!"5", by decide, by decide, by decide, by decide⟩⟩
  rintro s ⟨e, h, -⟩
  have := congrArg (fun l : Str => '.' ∈ l) h
  simp at this

/-- For directories with a dot in the name structured files differ from text files: the collections of `v1.5/p.json` are called
`v1/...`, whereas those of `v1.5/t.txt` are called `v1.5/...`. -/
theorem dotted_directory_loses_suffix :
    let lib : Lib := { demoLib with json := fun _ => some (.dict [(some c!"k", .str c!"x")]) }
    (fileCollections lib [] [c!"v1.5", c!"p.json"] (some [])).map (·.1) = [c!"v1/k"] ∧
    (fileCollections lib [] [c!"v1.5", c!"t.txt"] (some [])).map (·.1) = [c!"v1.5/t"] := by
  decide +kernel

end Verif.Props
