import Verif.Model.Files
/-!
# The wildcard tree and the wildcard manager

Models `wildcards/tree/tree.py`, `wildcards/tree/node.py`, `wildcards/values.py` and
`wildcards/wildcard_manager.py`, and the text file objects of `wildcards/collection/text_file.py`
with their caches.  Paths are relative to `src/dynamicprompts`.
-/

namespace Verif

/-! ## Trees -/

/-- A collection object: a list (`wildcards/collection/list.py:10-25`) or a text file object, given
by its index in the heap of the manager state. -/
inductive WColl where
  | list (items : List Item)
  | text (id : Nat)
deriving DecidableEq

/-- Models `wildcards/tree/node.py:10-14` `WildcardTreeNode`. -/
inductive TreeNode (α : Type) where
  | mk (path : Str) (children : List (Str × TreeNode α)) (colls : Dict α)

/-- `node.path`. -/
def TreeNode.path {α : Type} : TreeNode α → Str
  | .mk p _ _ => p

/-- Models `wildcards/tree/node.py:23-27` `qualify_name`. -/
def TreeNode.qualify {α : Type} (n : TreeNode α) (name : Str) : Str :=
  combineNameParts [n.path, name]

mutual
/-- Models `wildcards/tree/node.py:36-42` `walk_items` (with `get_items`, `:16-21`). -/
def TreeNode.walk {α : Type} : TreeNode α → List (Str × α)
  | .mk path children colls =>
    colls.map (fun q => ((TreeNode.mk path children colls).qualify q.1, q.2)) ++ TreeNode.walkChildren children
/-- The loop over the child nodes. -/
def TreeNode.walkChildren {α : Type} : List (Str × TreeNode α) → List (Str × α)
  | [] => []
  | (_, c) :: cs => c.walk ++ TreeNode.walkChildren cs
end

mutual
/-- Models `wildcards/tree/node.py:44-50` `walk_full_names` (with `get_full_names`, `:29-34`). -/
def TreeNode.walkNames {α : Type} : TreeNode α → List Str
  | .mk path children colls =>
    colls.map (fun q => (TreeNode.mk path children colls).qualify q.1) ++ TreeNode.walkChildNames children
/-- The loop over the child nodes. -/
def TreeNode.walkChildNames {α : Type} : List (Str × TreeNode α) → List Str
  | [] => []
  | (_, c) :: cs => c.walkNames ++ TreeNode.walkChildNames cs
end

/-- Models `wildcards/tree/tree.py:33-36`: find the child node for a part, or add the given new one,
and apply `f` there. -/
def TreeNode.atChild {α : Type} (part : Str) (new : TreeNode α) (f : TreeNode α → TreeNode α) :
    List (Str × TreeNode α) → List (Str × TreeNode α)
  | [] => [(part, f new)]
  | (n, child) :: cs =>
    if n = part then (n, f child) :: cs
    else (n, child) :: TreeNode.atChild part new f cs

/-- The loop body of `wildcards/tree/tree.py:31-37`: put a collection at the given parts of a
name. The empty list of parts does not occur (`str.split` never returns it). -/
def TreeNode.insert {α : Type} (c : α) : List Str → TreeNode α → TreeNode α
  | [], n => n
  | [last], .mk path children colls => .mk path children (colls.set last c)
  | part :: p :: parts, .mk path children colls =>
    .mk path (TreeNode.atChild part (.mk ((TreeNode.mk path children colls).qualify part) [] [])
      (TreeNode.insert c (p :: parts)) children) colls

/-- Models `wildcards/tree/tree.py:25-38` `from_map`: the root of the tree. -/
def treeFromMap {α : Type} (m : Dict α) : TreeNode α :=
  m.foldl (fun root q => TreeNode.insert q.2 (splitChar '/' q.1) root) (.mk [] [] [])

/-- Models `wildcards/tree/tree.py:11-21` and `:25-38`: a tree is its root and its map; the map is
a copy of the given one, or, if that is empty, the items of the root. -/
structure Tree (α : Type) where
  root : TreeNode α
  map : Dict α

/-- Models `WildcardTree.from_map`, `wildcards/tree/tree.py:25-38` with `__post_init__`, `:16-21`. -/
def Tree.fromMap {α : Type} (m : Dict α) : Tree α :=
  let root := treeFromMap m
  ⟨root, if m.isEmpty then Dict.update [] root.walk else m⟩

/-- Models `wildcards/tree/tree.py:43-47` `match_collections`. -/
def Tree.matching {α : Type} (t : Tree α) (pat : Str) : List α :=
  (t.map.filter fun q => fnmatch q.1 pat).map (·.2)

/-! ## Values -/

/-- Python `a <= b` on strings: by code points. -/
def strLe : Str → Str → Bool
  | [], _ => true
  | _ :: _, [] => false
  | a :: as, b :: bs => if a = b then strLe as bs else decide (a.toNat < b.toNat)

/-- Insert before the first item that is not smaller. -/
def insertItem (i : Item) : List Item → List Item
  | [] => [i]
  | j :: js => if strLe i.content j.content then i :: j :: js else j :: insertItem i js

/-- `sorted(items, key=str)`: stable sorting by text. -/
def sortItems : List Item → List Item
  | [] => []
  | i :: is => insertItem i (sortItems is)

/-- `list(dict.fromkeys(items))`: the first occurrence of every item. -/
def fromKeys (items : List Item) : List Item := dedupe id items

/-- Exchange two positions of a list. -/
def swapAt {α : Type} (l : List α) (i j : Nat) : List α :=
  match l[i]?, l[j]? with
  | some a, some b => (l.set i b).set j a
  | _, _ => l

/-- Loop of CPython `random.shuffle` (`random.py`): `i` counts down to 1. -/
def Rng.shuffleLoop {R α : Type} (r : Rng R) : Nat → List α → R → List α × R
  | 0, l, w => (l, w)
  | i + 1, l, w =>
    let x := r.below (i + 1) w
    r.shuffleLoop i (swapAt l (i + 1) x.1.val) x.2

/-- CPython `random.shuffle(l)` on a copy. Models `wildcards/values.py:77-83` `shuffled`. -/
def Rng.shuffle {R α : Type} (r : Rng R) (l : List α) (w : R) : List α × R :=
  r.shuffleLoop (l.length - 1) l w

/-! ## The manager -/

/-- What stays fixed: library functions, wrap string, roots, the `random` module. -/
structure MgrCfg (R : Type) where
  lib : Lib
  wrap : Str
  roots : RootMap
  rng : Rng R

/-- A text file object: path and `_cache` (`wildcards/collection/text_file.py:15-22`). -/
structure TextObj where
  path : Path
  cache : Option (List Str)

/-- State of a manager and of what it works on: the files, the text file objects made so far, the
state of the `random` module, and the attributes of `wildcards/wildcard_manager.py:37-43`. -/
structure Mgr (R : Type) where
  fs : FNode
  heap : List TextObj
  rand : R
  tree : Option (Tree WColl)
  cache : Dict (List Item)
  sort : Bool
  dedup : Bool
  shuffle : Bool

/-- Models `wildcards/wildcard_manager.py:44-50`: the root map used for the arguments `path` and
`root_map`. -/
def managerRoots (path : Option Path) (rootMap : Option RootMap) : Except Err RootMap :=
  match rootMap with
  | some (r :: rs) =>
    match path with
    | some _ => .error .value
    | none => .ok (r :: rs)
  | _ =>
    match path with
    | some p => .ok [([], [.path p])]
    | none => .ok []

/-- A new manager (`wildcards/wildcard_manager.py:37-50`) on the given files. -/
def newMgr {R : Type} (fs : FNode) (rand : R) : Mgr R :=
  { fs := fs, heap := [], rand := rand, tree := none, cache := [],
    sort := true, dedup := true, shuffle := false }

variable {R : Type}

/-- Make an object for every text file of a map (`wildcards/tree/build.py:35`, constructor
`text_file.py:15-22`). -/
def allocColls : List (Str × RawColl) → List TextObj → List (Str × WColl) × List TextObj
  | [], heap => ([], heap)
  | (n, .items l) :: m, heap =>
    let r := allocColls m heap
    ((n, .list l) :: r.1, r.2)
  | (n, .file p) :: m, heap =>
    let r := allocColls m (heap ++ [⟨p, none⟩])
    ((n, .text heap.length) :: r.1, r.2)

/-- Models `wildcards/wildcard_manager.py:108-117` `tree`. -/
def Mgr.getTree (cfg : MgrCfg R) : M (Mgr R) (Tree WColl) := fun s =>
  match s.tree with
  | some t => .ok t s
  | none =>
    let r := allocColls (rootMapColls cfg.lib s.fs cfg.roots) s.heap
    let t := Tree.fromMap r.1
    .ok t { s with tree := some t, heap := r.2 }

/-- Models `wildcards/collection/text_file.py:27-34` `get_values`. -/
def Mgr.textGetValues (id : Nat) : M (Mgr R) (List Str) := fun s =>
  match s.heap[id]? with
  | none => .err .index s
  | some o =>
    match o.cache with
    | some vs => .ok vs s
    | none =>
      match s.fs.read o.path with
      | none => .err .os s
      | some c =>
        let vs := textValues c
        .ok vs { s with heap := s.heap.set id ⟨o.path, some vs⟩ }

/-- Models `wildcards/collection/text_file.py:42-47` `write_text`. -/
def Mgr.textWrite (id : Nat) (contents : Str) : M (Mgr R) Unit := fun s =>
  match s.heap[id]? with
  | none => .err .index s
  | some o =>
    match s.fs.write contents o.path with
    | none => .err .os s
    | some fs => .ok () { s with fs := fs, heap := s.heap.set id ⟨o.path, none⟩ }

/-- `collection.get_values()`: `wildcards/collection/list.py:24-25` or text file. -/
def Mgr.collValues (c : WColl) : M (Mgr R) (List Item) :=
  match c with
  | .list items => pure items
  | .text id => do
    let vs ← Mgr.textGetValues id
    return vs.map (⟨·, none⟩)

/-- The loops of `wildcards/wildcard_manager.py:178-179` and `:184-185`. -/
def Mgr.collsValues : List WColl → M (Mgr R) (List Item)
  | [] => pure []
  | c :: cs => do
    let a ← Mgr.collValues c
    let b ← Mgr.collsValues cs
    return a ++ b

/-- Models `wildcards/wildcard_manager.py:126-135` `match_collections`. -/
def Mgr.matchCollections (cfg : MgrCfg R) (w : Str) : M (Mgr R) (List WColl) :=
  match cleanWildcard cfg.wrap w with
  | none => pure []
  | some pat => do
    let t ← Mgr.getTree cfg
    return t.matching pat

/-- Models `wildcards/wildcard_manager.py:177-185`: the values before the options apply. -/
def Mgr.lookup (cfg : MgrCfg R) (w : Str) : M (Mgr R) (List Item) := do
  let colls ← Mgr.matchCollections cfg w
  let values ← Mgr.collsValues colls
  if values.isEmpty && !startsWith w c!"**" then do
    let colls ← Mgr.matchCollections cfg (c!"**/" ++ w)
    Mgr.collsValues colls
  else return values

/-- Models `wildcards/wildcard_manager.py:194-200`. -/
def applyOptions (sort dedup shuffle : Bool) (values : List Item) : List Item :=
  let values := if dedup then fromKeys values else values
  if sort && !shuffle then sortItems values else values

/-- Models `wildcards/wildcard_manager.py:204-209`: put values into the cache. -/
def Mgr.store (w : Str) (values : List Item) : M (Mgr R) Unit := fun s =>
  let cache : Dict (List Item) := if s.cache.length > 100 then [] else s.cache
  .ok () { s with cache := cache.set w values }

/-- Models `wildcards/wildcard_manager.py:170-211` `_get_values`. -/
def Mgr.getValuesRaw (cfg : MgrCfg R) (w : Str) : M (Mgr R) (List Item) := fun s =>
  match s.cache.get w with
  | some v => .ok v s
  | none =>
    (do
      let values ← Mgr.lookup cfg w
      let values := applyOptions s.sort s.dedup s.shuffle values
      Mgr.store w values
      return values : M (Mgr R) (List Item)) s

/-- Models `wildcards/wildcard_manager.py:159-168` `get_values`. -/
def Mgr.getValues (cfg : MgrCfg R) (w : Str) : M (Mgr R) (List Item) := fun s =>
  match Mgr.getValuesRaw cfg w s with
  | .ok v s =>
    if s.shuffle then
      let r := cfg.rng.shuffle v s.rand
      .ok r.1 { s with rand := r.2 }
    else .ok v s
  | .err e s => .err e s
  | .fuel => .fuel

/-- Models `wildcards/wildcard_manager.py:119-124` `clear_cache`. -/
def Mgr.clearCache (s : Mgr R) : Mgr R := { s with tree := none, cache := [] }

/-- Models `wildcards/wildcard_manager.py:59-62`, the setter of `sort_wildcards`. -/
def Mgr.setSort (b : Bool) (s : Mgr R) : Mgr R := Mgr.clearCache { s with sort := b }

/-- Models `wildcards/wildcard_manager.py:71-74`, the setter of `dedup_wildcards`. -/
def Mgr.setDedup (b : Bool) (s : Mgr R) : Mgr R := Mgr.clearCache { s with dedup := b }

/-- Assignment to the plain attribute `shuffle_wildcards` (`wildcards/wildcard_manager.py:43`). -/
def Mgr.setShuffle (b : Bool) (s : Mgr R) : Mgr R := { s with shuffle := b }

/-- Models `wildcards/wildcard_manager.py:137-142` `get_file`. -/
def Mgr.getFile (cfg : MgrCfg R) (name : Str) : M (Mgr R) WColl :=
  match cleanWildcard cfg.wrap name with
  | none => M.raise .value
  | some n => do
    let t ← Mgr.getTree cfg
    match t.map.get n with
    | none => M.raise (.key n)
    | some c => return c

/-- Models `wildcards/wildcard_manager.py:144-148` `get_collection_names`: a set, here a list. -/
def Mgr.collectionNames (cfg : MgrCfg R) : M (Mgr R) (List Str) := do
  let t ← Mgr.getTree cfg
  return t.map.map (·.1)

end Verif
