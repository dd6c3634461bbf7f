import Verif.Model.Links
/-!
# Specification of links (C90)
-/

namespace Verif.Spec
open Verif

variable {α : Type}

/-- A node with its links replaced: `follow dir abs target` is what a link in the directory `dir` is replaced with. `cur` is
where the node is. -/
def replaceLinks (follow : Path → Bool → Path → FTree α) : Path → LNode α → FTree α
  | _, .file c => .file c
  | _, .locked => .broken
  | cur, .dir es => .dir (entries cur es)
  | cur, .link abs t => follow cur.dropLast abs t
where
  /-- the entries of a directory -/
  entries (cur : Path) : List (Str × LNode α) → List (Str × FTree α)
    | [] => []
    | (n, x) :: es => (n, replaceLinks follow (cur ++ [n]) x) :: entries cur es

/-- A node with every link replaced by what it points to, again with its links replaced, and so on; links that lead nowhere, or
through more than `k` links, are replaced by entries that cannot be opened.  (`m` bounds the replacements; it is never less
than `k`.) -/
def unlinked (fs : LNode α) : Nat → Nat → Path → LNode α → FTree α
  | 0, _ => replaceLinks fun _ _ _ => .broken
  | _, 0 => replaceLinks fun _ _ _ => .broken
  | m + 1, k + 1 => replaceLinks fun dir abs t =>
    match resolve fs k (if abs then [] else dir) t with
    | none => .broken
    | some (p, k') =>
      match fs.at p with
      | none => .broken
      | some x => unlinked fs m k' p x

/-- A file system with all links replaced. -/
def withoutLinks (fs : LNode α) : FTree α := unlinked fs 40 40 [] fs

/-- From the directory `cur` a path leads to the place `p`, where there is no link, over `used` links. -/
inductive Leads (fs : LNode α) : Nat → Path → Path → Path → Prop
  | here (cur : Path) : Leads fs 0 cur [] cur
  /-- `..` is the directory above (above the root, the root). -/
  | up {used : Nat} {cur rest p : Path} {es : List (Str × LNode α)} (hd : fs.at cur = some (.dir es))
      (h : Leads fs used cur.dropLast rest p) : Leads fs used cur (c!".." :: rest) p
  /-- A name of a file or directory. -/
  | into {used : Nat} {cur rest p : Path} {n : Str} {x : LNode α} (hn : n ≠ c!"..") (hx : fs.at (cur ++ [n]) = some x)
      (hl : ∀ abs t, x ≠ .link abs t) (h : Leads fs used (cur ++ [n]) rest p) : Leads fs used cur (n :: rest) p
  /-- The name of a link: what follows starts where the link leads. -/
  | over {used : Nat} {cur rest p t : Path} {n : Str} {abs : Bool} (hn : n ≠ c!"..")
      (hx : fs.at (cur ++ [n]) = some (.link abs t)) (h : Leads fs used (if abs then [] else cur) (t ++ rest) p) :
      Leads fs (used + 1) cur (n :: rest) p

/-- A path leads to `x`, over at most 40 links. -/
def LeadsTo (fs : LNode α) (path : Path) (x : LNode α) : Prop :=
  ∃ used p, used ≤ 40 ∧ Leads fs used [] path p ∧ fs.at p = some x

/-- The root is a directory, no directory lists a name twice, and `..` is no name. -/
structure Proper (fs : LNode α) : Prop where
  root : ∃ es, fs = .dir es
  names : ∀ p es, fs.at p = some (.dir es) → (es.map (·.1)).Nodup ∧ c!".." ∉ es.map (·.1)

end Verif.Spec
