import Verif.Model.Bytes
/-!
# Symbolic links

What the operations of the operating system used by the wildcard code (`Path.is_dir`, `os.walk(followlinks=True)`,
`Path.open`) do on a file system with symbolic links.
-/

namespace Verif

variable {α : Type}

/-- A file system as it is on the disk. The target of a link is a path from the root (`abs`) or from the directory of the
link, possibly with `..`. -/
inductive LNode (α : Type) where
  | file (contents : α)
  /-- a file without permission to read -/
  | locked
  | dir (entries : List (Str × LNode α))
  | link (abs : Bool) (target : Path)

/-- The entry of a directory. -/
def LNode.entry (es : List (Str × LNode α)) (name : Str) : Option (LNode α) :=
  match es with
  | [] => none
  | (n, x) :: es => if n = name then some x else LNode.entry es name

/-- What is at a path, without following any link. -/
def LNode.at (n : LNode α) : Path → Option (LNode α)
  | [] => some n
  | p :: ps =>
    match n with
    | .dir es =>
      match LNode.entry es p with
      | none => none
      | some m => m.at ps
    | _ => none

/-- How far a path can be followed without following a link: to its end; to something that is missing or no directory;
or to a link, found in the directory `dir`, after which `rest` remains. -/
inductive Advance where
  | done (p : Path)
  | fail
  | link (dir : Path) (abs : Bool) (target rest : Path)

/-- Follow a path from the directory `cur`, up to the first link. -/
def advance (fs : LNode α) : Path → Path → Advance
  | cur, [] => .done cur
  | cur, n :: rest =>
    match fs.at cur with
    | some (.dir es) =>
      if n = c!".." then advance fs cur.dropLast rest
      else
        match LNode.entry es n with
        | none => .fail
        | some (.link abs t) => .link cur abs t rest
        | some _ => advance fs (cur ++ [n]) rest
    | _ => .fail

/-- Follow a path, following at most `k` links: the place reached and the number of links still allowed. -/
def resolve (fs : LNode α) (k : Nat) (cur path : Path) : Option (Path × Nat) :=
  match advance fs cur path with
  | .done p => some (p, k)
  | .fail => none
  | .link dir abs target rest =>
    match k with
    | 0 => none
    | k + 1 => resolve fs k (if abs then [] else dir) (target ++ rest)

/-- The number of links Linux follows in one path (`MAXSYMLINKS`). -/
def maxLinks : Nat := 40

/-- What is found at a path when links are followed. -/
def LNode.stat (fs : LNode α) (path : Path) : Option (LNode α) :=
  match resolve fs maxLinks [] path with
  | none => none
  | some (p, _) => fs.at p

/-- `path.is_dir()`, as in `wildcards/tree/build.py:96`. -/
def LNode.isDir (fs : LNode α) (path : Path) : Bool :=
  match fs.stat path with
  | some (.dir _) => true
  | _ => false

/-- `path.open().read()`, as in `wildcards/collection/text_file.py:31`: `none` is an OSError. -/
def LNode.read (fs : LNode α) (path : Path) : Option α :=
  match fs.stat path with
  | some (.file c) => some c
  | _ => none

/-- `os.walk(top, followlinks=True)` with the directories whose name starts with a dot removed
(`wildcards/tree/build.py:66-68`; CPython `os.py`), down to the depth `depth`: the files found, relative to the start of the
walk, with what opening them gives.  Entries for which `is_dir()` fails count as files.  `rel` is where the walk is. -/
def LNode.walk (fs : LNode α) (root : Path) : Nat → Path → List (Path × Option α)
  | 0, _ => []
  | depth + 1, rel =>
    match fs.stat (root ++ rel) with
    | some (.dir es) =>
      let names := es.map (·.1)
      (names.filter fun n => !fs.isDir (root ++ rel ++ [n])).map (fun n => (rel ++ [n], fs.read (root ++ rel ++ [n]))) ++
      (names.filter fun n => fs.isDir (root ++ rel ++ [n]) && !startsWith n c!".").flatMap
        fun n => fs.walk root depth (rel ++ [n])
    | _ => []

/-- Models `wildcards/tree/build.py:58-75` `build_tree_from_path` on a file system with links. -/
def lDirMap (lib : Lib) (fs : LNode Bytes) (depth : Nat) (root : Path) : Dict RawColl :=
  (fs.walk root depth []).foldl (fun m f => m.update (byteCollections lib root f.1 f.2)) []

/-- Models `wildcards/tree/build.py:94-100` `_mappingify_item` on a file system with links. -/
def lRootItemMap (lib : Lib) (fs : LNode Bytes) (depth : Nat) : RootItem → Dict RawColl
  | .path p => if fs.isDir p then lDirMap lib fs depth p else []
  | .dict d => d.map fun q => (q.1, .items q.2)

/-- Models `wildcards/tree/build.py:78-85` `build_tree_from_root_map` on a file system with links. -/
def lRootMapColls (lib : Lib) (fs : LNode Bytes) (depth : Nat) (roots : RootMap) : Dict RawColl :=
  Dict.update [] (roots.flatMap fun r => r.2.flatMap fun item =>
    (lRootItemMap lib fs depth item).map fun q => (combineNameParts [r.1, q.1], q.2))

/-- The text of a text file, as `wildcards/collection/text_file.py:31,40` reads it. -/
def lRead (fs : LNode Bytes) (p : Path) : Option Str := (fs.read p).map decodeIgnore

end Verif
