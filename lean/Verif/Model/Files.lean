import Verif.Model.Monad
import Verif.Model.Glob
/-!
# Files and collections

Models `wildcards/collection/*.py` and the directory walk of `wildcards/tree/build.py`.  Paths are
relative to `src/dynamicprompts`.  Logging and warnings are not modelled.
-/

namespace Verif

/-! ## Dictionaries -/

/-- A Python dictionary with string keys, in insertion order. -/
abbrev Dict (α : Type) := List (Str × α)

/-- `d[k] = v`: an existing key keeps its position. -/
def Dict.set {α : Type} (d : Dict α) (k : Str) (v : α) : Dict α :=
  match d with
  | [] => [(k, v)]
  | (k', v') :: d => if k' = k then (k, v) :: d else (k', v') :: Dict.set d k v

/-- `d.get(k)`. -/
def Dict.get {α : Type} (d : Dict α) (k : Str) : Option α :=
  match d with
  | [] => none
  | (k', v') :: d => if k' = k then some v' else Dict.get d k

/-- `d.update(pairs)`. -/
def Dict.update {α : Type} (d : Dict α) (pairs : List (Str × α)) : Dict α :=
  pairs.foldl (fun d p => d.set p.1 p.2) d

/-! ## Text files -/

/-- Translation of `\r\n` and `\r` to `\n` when a file is opened in text mode. -/
def universalNewlines : Str → Str
  | '\r' :: '\n' :: cs => '\n' :: universalNewlines cs
  | '\r' :: cs => '\n' :: universalNewlines cs
  | c :: cs => c :: universalNewlines cs
  | [] => []

/-- The lines of an opened text file, without their newlines; a final newline makes one more, empty
line here, which the caller drops. -/
def fileLines (contents : Str) : List Str := splitChar '\n' (universalNewlines contents)

/-- Models `wildcards/collection/text_file.py:31-33`: the values in the contents of a text file.
Decoding is in `Model/Bytes`. -/
def textValues (contents : Str) : List Str :=
  ((fileLines contents).filter (fun l => !isEmptyLine l)).map strip

/-! ## Structured files -/

/-- A parsed JSON or YAML document. A dictionary key that is not a string is `none`. Numbers are
rationals: infinities and NaN are not represented. -/
inductive J where
  | null
  | bool (b : Bool)
  | num (q : Rat)
  | str (s : Str)
  | list (l : List J)
  | dict (d : List (Option Str × J))

/-- Python truth value. -/
def J.truthy : J → Bool
  | .null => false
  | .bool b => b
  | .num q => q ≠ 0
  | .str s => !s.isEmpty
  | .list l => !l.isEmpty
  | .dict d => !d.isEmpty

/-- `d.get(key)` on a document dictionary. -/
def J.get (d : List (Option Str × J)) (key : Str) : Option J :=
  match d with
  | [] => none
  | (k, v) :: d => if k = some key then some v else J.get d key

/-- The library functions structured files need: `str.isdigit` on a character, `float(text)`
(`none` for `ValueError`), `str(x)` of a content that is not a string, `json.loads` and
`yaml.safe_load` (`none` for any exception, and for YAML when the library is missing). -/
structure Lib where
  isDigit : Char → Bool
  float : Str → Option Rat
  strOf : J → Str
  json : Str → Option J
  yaml : Str → Option J

/-- `float(x)` of a document value; `none` for `ValueError` and `TypeError`. -/
def floatOf (lib : Lib) : J → Option Rat
  | .num q => some q
  | .bool b => some (if b then 1 else 0)
  | .str s => lib.float s
  | _ => none

/-- `s.rpartition("::")` as the text before and after the last `::`; `none` if there is none. -/
def rpartition2 (s : Str) : Option (Str × Str) :=
  match s with
  | [] => none
  | c :: cs =>
    match rpartition2 cs with
    | some (a, b) => some (c :: a, b)
    | none =>
      match c, cs with
      | ':', ':' :: rest => some ([], rest)
      | _, _ => none

/-- Models `wildcards/collection/structured.py:24-36`: the item a string of a list stands for. -/
def stringItem (lib : Lib) (s : Str) : Item :=
  match s with
  | [] => ⟨s, none⟩
  | c :: _ =>
    if lib.isDigit c then
      match rpartition2 s with
      | none => ⟨s, none⟩
      | some (w, content) =>
        match lib.float w with
        | some q => ⟨content, some q⟩
        | none => ⟨s, none⟩
    else ⟨s, none⟩

/-- `a or b` on document values that may be missing. -/
def jOr (a : Option J) (b : Option J) : Option J :=
  match a with
  | some v => if v.truthy then some v else b
  | none => b

/-- Models `wildcards/collection/structured.py:37-47`: the items a dictionary in a list stands for
(none or one); `none` is an exception from `float`. A content that is not a string is turned into
one here; the code does so later, with `str`: see `Model/Entries`. -/
def dictItem (lib : Lib) (d : List (Option Str × J)) : Option (List Item) :=
  match floatOf lib ((J.get d c!"weight").getD (.num 1)) with
  | none => none
  | some weight =>
    match jOr (J.get d c!"text") (J.get d c!"content") with
    | none => some []
    | some v =>
      if v.truthy then
        let content := match v with | .str s => s | v => lib.strOf v
        if weight = 1 then some [⟨content, none⟩] else some [⟨content, some weight⟩]
      else some []

/-- Models `wildcards/collection/structured.py:17-48` `_parse_structured_file_list`; `none` is an
exception. -/
def parseList (lib : Lib) : List J → Option (List Item)
  | [] => some []
  | j :: js =>
    if !j.truthy then parseList lib js
    else match j with
      | .str s => (parseList lib js).map (stringItem lib s :: ·)
      | .dict d =>
        match dictItem lib d with
        | none => none
        | some is => (parseList lib js).map (is ++ ·)
      | _ => parseList lib js

mutual
/-- Models the loop of `wildcards/collection/structured.py:51-95` `_parse_structured_file_dict`. -/
def parseDict (lib : Lib) (pre : List Str) : List (Option Str × J) → List (Str × List Item)
  | [] => []
  | (none, _) :: d => parseDict lib pre d
  | (some name, v) :: d => parseValue lib (pre ++ [name]) v ++ parseDict lib pre d
/-- The body of that loop for one string key; `path` is the prefix and the key. -/
def parseValue (lib : Lib) (path : List Str) : J → List (Str × List Item)
  | .str s =>
    if s.isEmpty then []
    else match parseList lib [.str s] with
      | none => []
      | some items => [(pyJoin ['/'] path, items)]
  | .list l =>
    if l.isEmpty then []
    else match parseList lib l with
      | none => []
      | some items => [(pyJoin ['/'] path, items)]
  | .dict d => parseDict lib path d
  | _ => []
end

/-- The strings of a list, `wildcards/collection/structured.py:121`. -/
def jStrings : List J → List Str
  | [] => []
  | .str s :: js => s :: jStrings js
  | _ :: js => jStrings js

/-- Models `wildcards/collection/structured.py:117-129`: the collections of a parsed document;
`stem` is the file name without its suffix. -/
def docCollections (lib : Lib) (stem : Str) : J → List (Str × List Item)
  | .dict d => parseDict lib [] d
  | .list l => if (jStrings l).isEmpty then [] else [(stem, (jStrings l).map (⟨·, none⟩))]
  | _ => []

/-! ## The file system -/

/-- A file, a directory with its entries in the order the system lists them, or an entry that is there but
cannot be opened (a link to nothing, a file without permission to read).  `Model/Links` has the links
themselves. -/
inductive FTree (α : Type) where
  | file (contents : α)
  | dir (entries : List (Str × FTree α))
  | broken

/-- A file system with texts as contents; `Model/Bytes` has the bytes. -/
abbrev FNode := FTree Str

/-- A path: its components. -/
abbrev Path := List Str

/-- The entry of a directory. -/
def FTree.entry {α : Type} (es : List (Str × FTree α)) (name : Str) : Option (FTree α) :=
  match es with
  | [] => none
  | (n, x) :: es => if n = name then some x else FTree.entry es name

/-- The file or directory at a path. -/
def FTree.at {α : Type} (n : FTree α) : Path → Option (FTree α)
  | [] => some n
  | p :: ps =>
    match n with
    | .dir es =>
      match FTree.entry es p with
      | none => none
      | some m => m.at ps
    | _ => none

/-- Replace an entry of a directory, or add it at the end. -/
def FTree.setEntry {α : Type} (es : List (Str × FTree α)) (name : Str) (x : FTree α) : List (Str × FTree α) :=
  match es with
  | [] => [(name, x)]
  | (n, y) :: es => if n = name then (n, x) :: es else (n, y) :: FTree.setEntry es name x

/-- Write a file; `none` if the path is a directory, lies in no directory, or cannot be opened.  (Writing to a
link to nothing could create a file elsewhere: not represented.) -/
def FTree.write {α : Type} (n : FTree α) (contents : α) : Path → Option (FTree α)
  | [] =>
    match n with
    | .file _ => some (.file contents)
    | _ => none
  | p :: ps =>
    match n with
    | .dir es =>
      match FTree.entry es p with
      | none => if ps.isEmpty then some (.dir (FTree.setEntry es p (.file contents))) else none
      | some m => (m.write contents ps).map fun m' => .dir (FTree.setEntry es p m')
    | _ => none

/-- `path.read_text()`. -/
def FTree.read {α : Type} (fs : FTree α) (p : Path) : Option α :=
  match fs.at p with
  | some (.file c) => some c
  | _ => none

/-- The files of a directory listing (all that is not a directory), with their path relative to the root of
the walk, and their contents if they can be opened. -/
def filesOf {α : Type} (rel : Path) : List (Str × FTree α) → List (Path × Option α)
  | [] => []
  | (n, .file c) :: es => (rel ++ [n], some c) :: filesOf rel es
  | (n, .broken) :: es => (rel ++ [n], none) :: filesOf rel es
  | (_, .dir _) :: es => filesOf rel es

mutual
/-- Files found by `os.walk` below a directory, skipping directories whose name starts with a dot.
Models `wildcards/tree/build.py:66-68`. -/
def walkNode {α : Type} (rel : Path) : FTree α → List (Path × Option α)
  | .file _ => []
  | .broken => []
  | .dir es => filesOf rel es ++ walkDirs rel es
/-- The subdirectories of that walk. -/
def walkDirs {α : Type} (rel : Path) : List (Str × FTree α) → List (Path × Option α)
  | [] => []
  | (n, x) :: es =>
    (if startsWith n c!"." then [] else walkNode (rel ++ [n]) x) ++ walkDirs rel es
end

/-- `PurePath(name).stem` and `.suffix` of a file name (CPython `pathlib.py`: the last dot counts
unless it is the first or the last character). -/
def splitSuffix (name : Str) : Str × Str :=
  let r := name.reverse
  let ext := r.takeWhile (· ≠ '.')
  match r.drop ext.length with
  | '.' :: stem => if stem.isEmpty || ext.isEmpty then (name, []) else (stem.reverse, '.' :: ext.reverse)
  | _ => (name, [])

/-- `str(path.with_suffix(""))` of a relative path. Models
`wildcards/tree/build.py:21-25` `_get_wildcard_file_name_from_path`; the empty path is the root. -/
def wildcardFileName (rel : Path) : Str :=
  match rel.getLast? with
  | none => []
  | some l => pyJoin ['/'] (rel.dropLast ++ [(splitSuffix l).1])

/-- A collection found on disk or in a root map: a list, or a text file to be read on demand. -/
inductive RawColl where
  | items (l : List Item)
  | file (p : Path)
deriving DecidableEq

/-- Models `wildcards/tree/build.py:28-55` `_get_wildcard_collections_from_path`; a text file is not opened
here, the exception of a structured file that cannot be opened is caught. -/
def fileCollections (lib : Lib) (root : Path) (rel : Path) (contents : Option Str) :
    List (Str × RawColl) :=
  let name := rel.getLastD []
  let suffix := (splitSuffix name).2
  if suffix = c!".txt" then [(wildcardFileName rel, .file (root ++ rel))]
  else if suffix = c!".json" ∨ suffix = c!".yaml" then
    let p := wildcardFileName rel.dropLast
    let pre := if p.isEmpty then p else p ++ ['/']
    match contents.bind (if suffix = c!".yaml" then lib.yaml else lib.json) with
    | none => []
    | some doc => (docCollections lib (splitSuffix name).1 doc).map fun q => (pre ++ q.1, .items q.2)
  else []

/-- Models `wildcards/tree/build.py:58-75` `build_tree_from_path`: the map of the tree. -/
def dirMap (lib : Lib) (fs : FNode) (root : Path) : Dict RawColl :=
  match fs.at root with
  | none => []
  | some d =>
    (walkNode [] d).foldl (fun m f => m.update (fileCollections lib root f.1 f.2)) []

/-- An item of a root map: a path or a dictionary (`wildcards/types.py:11-13`); a list of the
dictionary is turned into a list of plain strings (`build.py:88-91`). Text file objects made by the
caller are not represented. -/
inductive RootItem where
  | path (p : Path)
  | dict (d : Dict (List Item))

/-- Models `wildcards/tree/build.py:94-100` `_mappingify_item` and `:88-91` `_collectionify`. -/
def rootItemMap (lib : Lib) (fs : FNode) : RootItem → Dict RawColl
  | .path p =>
    match fs.at p with
    | some (.dir _) => dirMap lib fs p
    | _ => []
  | .dict d => d.map fun q => (q.1, .items q.2)

/-- A root map (`wildcards/types.py:13`). -/
abbrev RootMap := List (Str × List RootItem)

/-- The assignments of `wildcards/tree/build.py:78-85` `build_tree_from_root_map`, in order. -/
def rootMapPairs (lib : Lib) (fs : FNode) (roots : RootMap) : List (Str × RawColl) :=
  roots.flatMap fun r => r.2.flatMap fun item =>
    (rootItemMap lib fs item).map fun q => (combineNameParts [r.1, q.1], q.2)

/-- Models `wildcards/tree/build.py:78-85` `build_tree_from_root_map`: the map of the tree. -/
def rootMapColls (lib : Lib) (fs : FNode) (roots : RootMap) : Dict RawColl :=
  Dict.update [] (rootMapPairs lib fs roots)

end Verif
