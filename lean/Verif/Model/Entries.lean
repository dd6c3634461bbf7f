import Verif.Model.Manager
/-!
# Entries of a structured file whose text is not a string

In JSON and YAML an entry such as `{text: 5, weight: 2}` has a text that is not a string.  `Model/Files` turns such a
text into a string at once.  Here is what the code does: it keeps the value, and only some uses of it need a string.
-/

namespace Verif

/-- What `wildcards/collection/structured.py:17-48` yields: a string; a `WildcardItem` with a string; any other value of
the document (weight one, `:44`); a `WildcardItem` that contains any other value (`:46`). -/
inductive Entry where
  | text (s : Str)
  | weighted (s : Str) (w : Rat)
  | raw (v : J)
  | odd (v : J) (w : Rat)

/-- Models `wildcards/collection/structured.py:24-36`, the strings. -/
def stringEntry (lib : Lib) (s : Str) : Entry :=
  match s with
  | [] => .text s
  | c :: _ =>
    if lib.isDigit c then
      match rpartition2 s with
      | none => .text s
      | some (w, content) =>
        match lib.float w with
        | some q => .weighted content q
        | none => .text s
    else .text s

/-- Models `wildcards/collection/structured.py:37-47`, the dictionaries; `none` is an exception from `float`. -/
def dictEntry (lib : Lib) (d : List (Option Str × J)) : Option (List Entry) :=
  match floatOf lib ((J.get d c!"weight").getD (.num 1)) with
  | none => none
  | some weight =>
    match jOr (J.get d c!"text") (J.get d c!"content") with
    | none => some []
    | some v =>
      if v.truthy then
        match v with
        | .str s => if weight = 1 then some [.text s] else some [.weighted s weight]
        | v => if weight = 1 then some [.raw v] else some [.odd v weight]
      else some []

/-- Models `wildcards/collection/structured.py:17-48` `_parse_structured_file_list`; `none` is an exception. -/
def listEntries (lib : Lib) : List J → Option (List Entry)
  | [] => some []
  | j :: js =>
    if !j.truthy then listEntries lib js
    else match j with
      | .str s => (listEntries lib js).map (stringEntry lib s :: ·)
      | .dict d =>
        match dictEntry lib d with
        | none => none
        | some es => (listEntries lib js).map (es ++ ·)
      | _ => listEntries lib js

/-- Whether Python can hash a value of a document: not lists and dictionaries. -/
def J.hashable : J → Bool
  | .list _ => false
  | .dict _ => false
  | _ => true

/-- Whether an entry can be hashed; a `WildcardItem` is hashed by its fields (`wildcards/item.py:4`). -/
def Entry.hashable : Entry → Bool
  | .raw v => v.hashable
  | .odd v _ => v.hashable
  | _ => true

/-- Python `==` on values that can be hashed: booleans are numbers. -/
def J.same : J → J → Bool
  | .null, .null => true
  | .str s, .str s' => s = s'
  | .num q, .num q' => q = q'
  | .bool b, .bool b' => b = b'
  | .num q, .bool b => q = if b then 1 else 0
  | .bool b, .num q => q = if b then 1 else 0
  | _, _ => false

/-- Python `==` on entries that can be hashed (`wildcards/item.py:4`: a dataclass is equal to objects of its own class
with the same fields). -/
def Entry.same : Entry → Entry → Bool
  | .text s, .text s' => s = s'
  | .weighted s w, .weighted s' w' => s = s' && w = w'
  | .raw v, .raw v' => v.same v'
  | .odd v w, .odd v' w' => v.same v' && w = w'
  | _, _ => false

/-- The first occurrence of every entry, those in `seen` left out. -/
def firstEntries (seen : List Entry) : List Entry → List Entry
  | [] => []
  | e :: es => if seen.any (·.same e) then firstEntries seen es else e :: firstEntries (e :: seen) es

/-- `list(dict.fromkeys(entries))`; `none` is a TypeError. -/
def dedupEntries (es : List Entry) : Option (List Entry) :=
  if es.all Entry.hashable then some (firstEntries [] es) else none

/-- `str(entry)`; `none` is a TypeError: `wildcards/item.py:9-11` `__str__` must return a string. -/
def Entry.str (lib : Lib) : Entry → Option Str
  | .text s => some s
  | .weighted s _ => some s
  | .raw v => some (lib.strOf v)
  | .odd _ _ => none

/-- `getattr(entry, "weight", 1)`, `wildcards/values.py:53`; `none` is no attribute. -/
def Entry.weight? : Entry → Option Rat
  | .weighted _ w => some w
  | .odd _ w => some w
  | _ => none

/-- Insert before the first entry whose key is not smaller. -/
def insertEntry (k : Str) (e : Entry) : List (Str × Entry) → List (Str × Entry)
  | [] => [(k, e)]
  | q :: qs => if strLe k q.1 then (k, e) :: q :: qs else q :: insertEntry k e qs

/-- Stable sorting by key. -/
def sortKeyed : List (Str × Entry) → List (Str × Entry)
  | [] => []
  | q :: qs => insertEntry q.1 q.2 (sortKeyed qs)

/-- The keys of `sorted(entries, key=str)`, computed first. -/
def keyed (lib : Lib) : List Entry → Option (List (Str × Entry))
  | [] => some []
  | e :: es =>
    match e.str lib, keyed lib es with
    | some k, some r => some ((k, e) :: r)
    | _, _ => none

/-- `sorted(entries, key=str)`; `none` is a TypeError. -/
def sortEntries (lib : Lib) (es : List Entry) : Option (List Entry) :=
  (keyed lib es).map fun l => (sortKeyed l).map (·.2)

/-- Models `wildcards/wildcard_manager.py:192-200`; `none` is a TypeError. -/
def entryOptions (lib : Lib) (sort dedup shuffle : Bool) (es : List Entry) : Option (List Entry) :=
  match if dedup then dedupEntries es else some es with
  | none => none
  | some es => if sort && !shuffle then sortEntries lib es else some es

/-- The strings and weights samplers ask a `WildcardValues` for (`wildcards/values.py:59-72`); `none` is a TypeError. -/
def entryItems (lib : Lib) : List Entry → Option (List Item)
  | [] => some []
  | e :: es =>
    match e.str lib, entryItems lib es with
    | some s, some r => some (⟨s, e.weight?⟩ :: r)
    | _, _ => none

/-- The entries of the collections that match a wildcard, `wildcards/wildcard_manager.py:126-135` and `:177-179`. -/
def entryMatches (wrap : Str) (m : Dict (List Entry)) (w : Str) : List Entry :=
  match cleanWildcard wrap w with
  | none => []
  | some pat => (m.filter fun q => fnmatch q.1 pat).flatMap (·.2)

/-- Models `wildcards/wildcard_manager.py:170-211` `_get_values` of a wildcard that is not in the cache, where all
collections are lists; `none` is a TypeError. -/
def entryValues (lib : Lib) (wrap : Str) (m : Dict (List Entry)) (sort dedup shuffle : Bool) (w : Str) :
    Option (List Entry) :=
  let es := entryMatches wrap m w
  let es := if es.isEmpty && !startsWith w c!"**" then entryMatches wrap m (c!"**/" ++ w) else es
  entryOptions lib sort dedup shuffle es

end Verif
