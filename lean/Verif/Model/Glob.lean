import Verif.Py.Str
/-!
# Wildcard names and glob patterns

Models `wildcards/utils.py`, the name functions of `wildcards/wildcard_manager.py` and the part of
the standard library's `fnmatch` that `wildcards/tree/tree.py` relies on.  Paths are relative to
`src/dynamicprompts`.
-/

namespace Verif

/-- The characters of the class `[\\/]` in `wildcards/utils.py:20`. -/
def isSep (c : Char) : Bool := c == '\\' || c == '/'

/-- `re.sub(r"[\\/]+", "/", s)`, `wildcards/utils.py:20`; `prev` says whether the previous
character was a separator. -/
def collapseSeps (prev : Bool) : Str → Str
  | [] => []
  | c :: cs =>
    if isSep c then
      if prev then collapseSeps true cs else '/' :: collapseSeps true cs
    else c :: collapseSeps false cs

/-- Models `wildcards/utils.py:8-30` `clean_wildcard`; `none` is `ValueError`. -/
def cleanWildcard (wrap : Str) (w : Str) : Option Str :=
  let w := removesuffix (removeprefix w wrap) wrap
  let w := collapseSeps false w
  let w := stripP (· == '/') w
  if hasSub c!".." w then none
  else if hasSub ['\\'] w then none
  else some w

/-- Models `wildcards/utils.py:33-37` `combine_name_parts`. -/
def combineNameParts (parts : List Str) : Str := stripP (· == '/') (pyJoin ['/'] parts)

/-- Models `wildcards/wildcard_manager.py:91-100` `to_wildcard`. -/
def toWildcard (wrap name : Str) : Str :=
  let name := if startsWith name wrap then name else wrap ++ name
  if endsWith name wrap then name else name ++ wrap

/-- Models `wildcards/wildcard_manager.py:102-106` `is_wildcard`. -/
def isWildcard (wrap text : Str) : Bool := startsWith text wrap && endsWith text wrap

/-! ## `fnmatch` -/

/-- An item of a bracket expression: a range of characters (a single character is a range of
one). -/
abbrev GRange := Char × Char

/-- One piece of a pattern. -/
inductive GTok where
  | star
  | any
  | lit (c : Char)
  | set (neg : Bool) (items : List GRange)
deriving DecidableEq

/-- Does a range contain a character? -/
def GRange.has (r : GRange) (c : Char) : Bool := decide (r.1.toNat ≤ c.toNat) && decide (c.toNat ≤ r.2.toNat)

/-- Does a piece other than `*` accept a character? -/
def GTok.accepts (t : GTok) (c : Char) : Bool :=
  match t with
  | .star => false
  | .any => true
  | .lit d => c == d
  | .set neg items => items.any (fun r => r.has c) != neg

/-- Ranges and single characters of the inside of a bracket expression: `x-y` is a range if
something follows the hyphen (CPython 3.11 `fnmatch.py:106-131`). -/
def bracketItems : Str → List GRange
  | x :: '-' :: y :: rest => (x, y) :: bracketItems rest
  | x :: rest => (x, x) :: bracketItems rest
  | [] => []

/-- The inside of a bracket expression without the ranges at its beginning that are out of order. -/
def dropBackward : Str → Str
  | x :: '-' :: y :: rest => if y.toNat < x.toNat then dropBackward rest else x :: '-' :: y :: rest
  | s => s

/-- The character set of a bracket expression with the given inside.  A leading `!` negates.
CPython removes ranges that are out of order from the text before it looks for the `!` (`fnmatch.py:121-143`), so
that `[z-a!b]` also negates; the second match reproduces this. -/
def bracketSet (body : Str) : GTok :=
  match body with
  | '!' :: rest => .set true (bracketItems rest)
  | _ =>
    match dropBackward body with
    | '!' :: '-' :: y :: rest => .set true (('-', '-') :: (y, y) :: bracketItems rest)
    | '!' :: rest => .set true (bracketItems rest)
    | rest => .set false (bracketItems rest)

/-- Split at the first `]`: the text before and after it. -/
def untilClose : Str → Option (Str × Str)
  | [] => none
  | c :: cs =>
    if c == ']' then some ([], cs)
    else match untilClose cs with
      | none => none
      | some (a, b) => some (c :: a, b)

/-- The inside of a bracket expression (after `[`) and what follows it: an initial `!` and then an
initial `]` belong to the inside (CPython `fnmatch.py:92-99`). -/
def bracketSplit (s : Str) : Option (Str × Str) :=
  match s with
  | '!' :: ']' :: r => (untilClose r).map fun p => ('!' :: ']' :: p.1, p.2)
  | '!' :: r => (untilClose r).map fun p => ('!' :: p.1, p.2)
  | ']' :: r => (untilClose r).map fun p => (']' :: p.1, p.2)
  | r => untilClose r

/-- The pieces of a pattern; `n` bounds the length of the pattern. Models the first loop of CPython
`fnmatch.translate` (`fnmatch.py:80-146`); that it merges consecutive `*` makes no difference to
what is matched. -/
def globToksN : Nat → Str → List GTok
  | 0, _ => []
  | _ + 1, [] => []
  | n + 1, '*' :: cs => .star :: globToksN n cs
  | n + 1, '?' :: cs => .any :: globToksN n cs
  | n + 1, '[' :: cs =>
    match bracketSplit cs with
    | none => .lit '[' :: globToksN n cs
    | some (body, rest) => bracketSet body :: globToksN n rest
  | n + 1, c :: cs => .lit c :: globToksN n cs

/-- The pieces of a pattern. -/
def globToks (pat : Str) : List GTok := globToksN pat.length pat

/-- All suffixes of a text, longest first. -/
def suffixes : Str → List Str
  | [] => [[]]
  | c :: cs => (c :: cs) :: suffixes cs

/-- Does the whole text match the pieces? `*` is any text, including newlines and slashes. Models
matching the regular expression of CPython `fnmatch.py:148-184`; for the atomic groups CPython uses
to avoid backtracking see `Model/Translate.lean`. -/
def globMatch : List GTok → Str → Bool
  | [], s => s.isEmpty
  | .star :: p, s => (suffixes s).any (fun t => globMatch p t)
  | t :: p, c :: s => t.accepts c && globMatch p s
  | _ :: _, [] => false

/-- Models `fnmatch.fnmatch(name, pat)` on POSIX systems (`os.path.normcase` is the identity), as
used in `wildcards/tree/tree.py:46`. -/
def fnmatch (name pat : Str) : Bool := globMatch (globToks pat) name

end Verif
