import Verif.Spec.Links
import Verif.Model.LinkWrites
/-!
# Specification of writing through links (C113)
-/

namespace Verif.Spec
open Verif

variable {α : Type}

/-- From the directory `cur` a path leads, over `used` links, to the name `p` of a file that is not there, in a directory that is. -/
inductive LeadsNew (fs : LNode α) : Nat → Path → Path → Path → Prop
  | name {cur : Path} {n : Str} {es : List (Str × LNode α)} (hn : n ≠ c!"..") (hd : fs.at cur = some (.dir es))
      (hx : fs.at (cur ++ [n]) = none) : LeadsNew fs 0 cur [n] (cur ++ [n])
  | up {used : Nat} {cur rest p : Path} {es : List (Str × LNode α)} (hd : fs.at cur = some (.dir es))
      (h : LeadsNew fs used cur.dropLast rest p) : LeadsNew fs used cur (c!".." :: rest) p
  | into {used : Nat} {cur rest p : Path} {n : Str} {x : LNode α} (hn : n ≠ c!"..") (hx : fs.at (cur ++ [n]) = some x)
      (hl : ∀ abs t, x ≠ .link abs t) (h : LeadsNew fs used (cur ++ [n]) rest p) : LeadsNew fs used cur (n :: rest) p
  | over {used : Nat} {cur rest p t : Path} {n : Str} {abs : Bool} (hn : n ≠ c!"..")
      (hx : fs.at (cur ++ [n]) = some (.link abs t)) (h : LeadsNew fs used (if abs then [] else cur) (t ++ rest) p) :
      LeadsNew fs (used + 1) cur (n :: rest) p

/-- Both paths lead to the same place, over at most 40 links each. -/
def SamePlace (fs : LNode α) (q path : Path) : Prop :=
  ∃ p, (∃ used, used ≤ 40 ∧ Leads fs used [] q p) ∧ ∃ used, used ≤ 40 ∧ Leads fs used [] path p

/-- A file system without links, as one that could have them; what cannot be opened is without permission. -/
def asLinks : FTree α → LNode α
  | .file c => .file c
  | .broken => .locked
  | .dir es => .dir (entries es)
where
  /-- the entries of a directory -/
  entries : List (Str × FTree α) → List (Str × LNode α)
    | [] => []
    | (n, x) :: es => (n, asLinks x) :: entries es

end Verif.Spec
