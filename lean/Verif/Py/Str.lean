/-!
# Python strings and the string helpers of `utils.py`

Strings are lists of characters.  Only what the code base uses is defined.
-/

namespace Verif

/-- Python `str`: a list of code points. Surrogates are not represented. -/
abbrev Str := List Char

/-- `c!"abc"` is the list of characters of a literal (reduces in the kernel). -/
macro:max "c!" s:str : term => do
  let cs := s.getString.toList.map fun c => Lean.Syntax.mkCharLit c
  let rec build : List (Lean.TSyntax `char) → Lean.MacroM (Lean.TSyntax `term)
    | [] => `(([] : List Char))
    | c :: cs => do let t ← build cs; `(List.cons $c $t)
  build cs

/-- Python `str.isspace` on one character (CPython `_PyUnicode_IsWhitespace`);
used by `str.split()` and `str.strip()`. -/
def isSpace (c : Char) : Bool :=
  let n := c.toNat
  (0x9 ≤ n && n ≤ 0xd) || (0x1c ≤ n && n ≤ 0x20) || n == 0x85 || n == 0xa0 ||
  n == 0x1680 || (0x2000 ≤ n && n ≤ 0x200a) || n == 0x2028 || n == 0x2029 ||
  n == 0x202f || n == 0x205f || n == 0x3000

/-- Python `s.startswith(p)`. -/
def startsWith (s p : Str) : Bool := p.isPrefixOf s

/-- Python `s.endswith(p)`. -/
def endsWith (s p : Str) : Bool := p.isSuffixOf s

/-- Models `src/dynamicprompts/utils.py:13-14` `removeprefix`. -/
def removeprefix (s pre : Str) : Str :=
  if !pre.isEmpty && startsWith s pre then s.drop pre.length else s

/-- Models `src/dynamicprompts/utils.py:17-18` `removesuffix`. -/
def removesuffix (s suf : Str) : Str :=
  if !suf.isEmpty && endsWith s suf then s.take (s.length - suf.length) else s

/-- Put a character in front of the first field. -/
def consHead (c : Char) : List Str → List Str
  | [] => [[c]]
  | w :: ws => (c :: w) :: ws

/-- Split at every character satisfying `p` (like `re.split`, keeps empty fields). -/
def splitAt1 (p : Char → Bool) : Str → List Str
  | [] => [[]]
  | c :: cs => if p c then [] :: splitAt1 p cs else consHead c (splitAt1 p cs)

/-- Python `s.split()`: maximal runs of non-whitespace. -/
def pySplit (s : Str) : List Str := (splitAt1 isSpace s).filter (fun w => !w.isEmpty)

/-- Python `sep.join(parts)`. -/
def pyJoin (sep : Str) : List Str → Str
  | [] => []
  | [x] => x
  | x :: y :: r => x ++ sep ++ pyJoin sep (y :: r)

/-- Models `src/dynamicprompts/utils.py:21-22` `squash_whitespace`. -/
def squashWhitespace (s : Str) : Str := pyJoin [' '] (pySplit s)

/-- Python `s.lstrip()` restricted to characters satisfying `p`. -/
def lstripP (p : Char → Bool) (s : Str) : Str := s.dropWhile p

/-- Python `s.rstrip()` restricted to characters satisfying `p`. -/
def rstripP (p : Char → Bool) (s : Str) : Str := (s.reverse.dropWhile p).reverse

/-- Python `s.strip(chars)` / `s.strip()`, with the character class as a predicate. -/
def stripP (p : Char → Bool) (s : Str) : Str := rstripP p (lstripP p s)

/-- Python `s.strip()`. -/
def strip (s : Str) : Str := stripP isSpace s

/-- Python `sub in s`. -/
def hasSub (sub : Str) : Str → Bool
  | [] => sub.isEmpty
  | c :: cs => sub.isPrefixOf (c :: cs) || hasSub sub cs

/-- Python `s.split(sep)` for a one-character separator. -/
def splitChar (sep : Char) (s : Str) : List Str := splitAt1 (· == sep) s

/-- Loop of `dedupe`, `seen` are the keys seen so far.
Models `src/dynamicprompts/utils.py:29-37`. -/
def dedupeAux {α κ : Type} [BEq κ] (key : α → κ) (seen : List κ) : List α → List α
  | [] => []
  | x :: xs =>
    if seen.contains (key x) then dedupeAux key seen xs
    else x :: dedupeAux key (key x :: seen) xs

/-- Models `src/dynamicprompts/utils.py:29-37` `dedupe`. -/
def dedupe {α κ : Type} [BEq κ] (key : α → κ) (arr : List α) : List α := dedupeAux key [] arr

/-- Models `src/dynamicprompts/sampling_result.py:48-72` `SamplingResult.joined`
(a `SamplingResult` is its text; the class has no other field). -/
def joined (sep : Str) : List Str → Str
  | [x] => x
  | rs =>
    let j := pyJoin sep rs
    if sep.isEmpty then j else removesuffix (removeprefix j sep) sep

/-- Models `src/dynamicprompts/commands/wrap_command.py:12-20`. -/
def isWrapMark (c : Char) : Bool :=
  let n := c.toNat
  n == 0x1801 || n == 0x2026 || n == 0x22ee || n == 0x22ef || n == 0x22f0 || n == 0x22f1 || n == 0xfe19

/-- Length of the match of `WRAP_MARKER_RE` at the beginning of the string, 0 if none.
Models `src/dynamicprompts/commands/wrap_command.py:22-26` (greedy alternatives). -/
def wrapMatchLen (s : Str) : Nat :=
  let marks := s.takeWhile isWrapMark
  if marks.length ≥ 1 then marks.length
  else
    let dots := s.takeWhile (· == '.')
    if dots.length ≥ 3 then dots.length else 0

/-- Search for the first marker, returning prefix and suffix; the flag says whether a
marker was found.  Models `re.search` of `wrap_command.py:33-38`. -/
def wrapSearch : Str → Option (Str × Str)
  | [] => none
  | c :: cs =>
    let n := wrapMatchLen (c :: cs)
    if n ≥ 1 then some ([], (c :: cs).drop n)
    else match wrapSearch cs with
      | none => none
      | some (p, q) => some (c :: p, q)

/-- Models `src/dynamicprompts/commands/wrap_command.py:29-38` `split_wrapper_string`
(the warning is not modelled). -/
def splitWrapper (s : Str) : Str × Str :=
  match wrapSearch s with
  | none => (s, [])
  | some pq => pq

/-- Models `src/dynamicprompts/sampling_result.py:34-46` `as_wrapper` applied to an inner
result: join of prefix, inner and suffix with the empty separator. -/
def wrapWith (wrapper inner : Str) : Str :=
  let ps := splitWrapper wrapper
  joined [] [ps.1, inner, ps.2]

/-- Models `src/dynamicprompts/utils.py:25-26` `is_empty_line` (a line read from a file is
never `None`). -/
def isEmptyLine (line : Str) : Bool := strip line == [] || startsWith (strip line) c!"#"

end Verif
