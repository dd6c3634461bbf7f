import Verif.Spec.Files
import Verif.Spec.Tree
/-!
# Specification of the wildcard manager: what a wildcard stands for

The map of the collections (`rootMapColls`, specified by C34 to C36, C52 and C53), cleaning of names
(`cleanWildcard`, C25) and pattern matching (`fnmatch`, C30) are taken from the model; nothing that
keeps a cache is used.
-/

namespace Verif.Spec
open Verif

/-- The values of a collection, with the files as they are now. -/
inductive Holds (fs : FNode) : RawColl → List Item → Prop
  | items {l} : Holds fs (.items l) l
  | file {p contents ls vs} : fs.read p = some contents → Lines contents ls → TextEntries ls vs →
      Holds fs (.file p) (vs.map (⟨·, none⟩))

/-- `Gathers fs pat m vs`: `vs` are the values of the collections of `m` whose name matches the
pattern, one collection after the other. -/
inductive Gathers (fs : FNode) (pat : Str) : List (Str × RawColl) → List Item → Prop
  | nil : Gathers fs pat [] []
  | skip {n c m vs} : fnmatch n pat = false → Gathers fs pat m vs → Gathers fs pat ((n, c) :: m) vs
  | take {n c m us vs} : fnmatch n pat = true → Holds fs c us → Gathers fs pat m vs →
      Gathers fs pat ((n, c) :: m) (us ++ vs)

/-- The values of all collections matching a wildcard; none if the wildcard is not valid. -/
def Matches {R : Type} (cfg : MgrCfg R) (fs : FNode) (w : Str) (vs : List Item) : Prop :=
  (cleanWildcard cfg.wrap w = none ∧ vs = []) ∨
  ∃ pat, cleanWildcard cfg.wrap w = some pat ∧ Gathers fs pat (rootMapColls cfg.lib fs cfg.roots) vs

/-- `Finds cfg fs w vs`: the wildcard `w` stands for the values `vs`: those of the matching
collections; only if there are none, and `w` does not start with `**`, those of the collections
matching `**/w`. -/
def Finds {R : Type} (cfg : MgrCfg R) (fs : FNode) (w : Str) (vs : List Item) : Prop :=
  (Matches cfg fs w vs ∧ (vs ≠ [] ∨ c!"**" <+: w)) ∨
  (Matches cfg fs w [] ∧ ¬ c!"**" <+: w ∧ Matches cfg fs (c!"**/" ++ w) vs)

/-- Alphabetical order of texts by code points. -/
def TextLe (a b : Str) : Prop := List.Lex (fun x y : Char => x.toNat < y.toNat) a b ∨ a = b

/-- What happens to the values before they are returned, without shuffling: duplicates are dropped
if asked, keeping the first ones; then they are sorted by text if asked, keeping the order of
values with the same text. -/
structure Arranged (sort dedup : Bool) (found out : List Item) : Prop where
  distinct : dedup = true → out.Nodup ∧ ∀ i, i ∈ out ↔ i ∈ found
  all : dedup = false → out.Perm found
  sorted : sort = true → out.Pairwise fun a b => TextLe a.content b.content
  order : sort = false → out.Sublist found
  first : dedup = true →
    out.Pairwise fun a b => (sort = false ∨ a.content = b.content) → found.idxOf a < found.idxOf b
  stable : ∀ t, (out.filter (·.content = t)).Sublist (found.filter (·.content = t))

end Verif.Spec
