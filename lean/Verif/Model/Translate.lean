import Verif.Model.Glob
/-!
# The regular expressions of `fnmatch`

`wildcards/tree/tree.py:46` matches names with `fnmatch`, which builds a regular expression from the pattern.  CPython 3.11
builds one with atomic groups, which are not entered again once they have matched.  (Python 3.9 and 3.10 write the same with
a lookahead and a reference to its group.)
-/

namespace Verif

/-- Behind `wildcards/tree/tree.py:46`.
A part of the regular expression: one piece of the pattern other than `*`; `.*`; or `(?>.*?fixed)`, the first place where
the pieces match, once and for all. -/
inductive Rx where
  | one (t : GTok)
  | rest
  | group (fixed : List GTok)

/-- Behind `wildcards/tree/tree.py:46`.
The pieces matched at the beginning of a text: what follows them. -/
def fixedAt : List GTok → Str → Option Str
  | [], s => some s
  | _ :: _, [] => none
  | t :: p, c :: s => if t.accepts c then fixedAt p s else none

/-- Behind `wildcards/tree/tree.py:46`.
What may remain after the part has matched, in the order in which `re` tries it (`.*` takes as much as possible first,
`.*?` as little as possible); an atomic group keeps the first way only. -/
def Rx.results : Rx → Str → List Str
  | .one _, [] => []
  | .one t, c :: s => if t.accepts c then [s] else []
  | .rest, s => (suffixes s).reverse
  | .group fixed, s => ((suffixes s).filterMap (fixedAt fixed)).take 1

/-- Behind `wildcards/tree/tree.py:46`.
Matching with backtracking; the end of the expression is `\Z`. -/
def rxMatch : List Rx → Str → Bool
  | [], s => s.isEmpty
  | x :: xs, s => (x.results s).any (rxMatch xs)

/-- Behind `wildcards/tree/tree.py:46`.
`*` after `*` is left out (CPython 3.11 `fnmatch.py:87-90`); `prev` says whether the piece before is `*`. -/
def squeeze (prev : Bool) : List GTok → List GTok
  | [] => []
  | .star :: p => if prev then squeeze true p else .star :: squeeze true p
  | t :: p => t :: squeeze false p

/-- Behind `wildcards/tree/tree.py:46`.
The pieces between the stars. -/
def pieces : List GTok → List (List GTok)
  | [] => [[]]
  | .star :: p => [] :: pieces p
  | t :: p => match pieces p with
    | [] => [[t]]
    | q :: qs => (t :: q) :: qs

/-- Behind `wildcards/tree/tree.py:46`.
`STAR fixed STAR fixed ...` (`fnmatch.py:156-182`): a `*` with pieces before the next `*` is an atomic group, the last one
is `.*`. -/
def starred : List (List GTok) → List Rx
  | [] => []
  | [last] => .rest :: last.map .one
  | fixed :: more => .group fixed :: starred more

/-- Behind `wildcards/tree/tree.py:46`.
The second part of CPython 3.11 `fnmatch.translate` (`fnmatch.py:145-184`). -/
def translate (toks : List GTok) : List Rx :=
  match pieces (squeeze false toks) with
  | [] => []
  | first :: more => first.map .one ++ starred more

/-- `fnmatch.fnmatch(name, pat)` (`wildcards/tree/tree.py:46`) with the regular expression of CPython 3.11. -/
def fnmatchRx (name pat : Str) : Bool := rxMatch (translate (globToks pat)) name

/-! ## Bracket expressions -/

/-- Behind `wildcards/tree/tree.py:46`.
The inside of a bracket expression cut at the hyphens of its ranges (CPython 3.11 `fnmatch.py:109-118`): after a hyphen at
`k` the next one is looked for from `k + 3` on; `skip` characters are still to be passed, `acc` is the current chunk. -/
def chunkScan : Nat → Str → Str → List Str
  | _, acc, [] => [acc]
  | 0, acc, c :: s => if c == '-' then acc :: chunkScan 2 [] s else chunkScan 0 (acc ++ [c]) s
  | n + 1, acc, c :: s => chunkScan n (acc ++ [c]) s

/-- Behind `wildcards/tree/tree.py:46`.
`fnmatch.py:119-123`: if nothing follows the last hyphen, it belongs to the chunk before it. -/
def closeChunks : List Str → List Str
  | [] => []
  | [x] => [x]
  | [x, []] => [x ++ ['-']]
  | x :: xs => x :: closeChunks xs

/-- Behind `wildcards/tree/tree.py:46`.
`fnmatch.py:105-123`: the chunks (the text itself if it has no hyphen). -/
def bracketChunks (body : Str) : List Str :=
  if '-' ∈ body then closeChunks (chunkScan (if startsWith body ['!'] then 2 else 1) [] body) else [body]

/-- Behind `wildcards/tree/tree.py:46`.
One step of `fnmatch.py:125-128`: a range that is out of order is removed. -/
def joinChunk (x : Str) (l : List Str) : List Str :=
  match l with
  | [] => [x]
  | y :: ys =>
    match x.getLast?, y.head? with
    | some a, some b => if b.toNat < a.toNat then (x.dropLast ++ y.tail) :: ys else x :: y :: ys
    | _, _ => x :: y :: ys

/-- Behind `wildcards/tree/tree.py:46`.
`fnmatch.py:124-128`, from the last chunk to the first. -/
def mergeChunks (l : List Str) : List Str := l.foldr joinChunk []

/-- Behind `wildcards/tree/tree.py:46`.
`fnmatch.py:107,131-134`: backslashes, hyphens inside chunks, and the characters of set operations get a backslash. -/
def escClass (s : Str) : Str := s.flatMap fun c => if c ∈ ['\\', '-', '&', '~', '|'] then ['\\', c] else [c]

/-- Behind `wildcards/tree/tree.py:46`.
The variable `stuff` before `fnmatch.py:136`. -/
def classStuff (body : Str) : Str := pyJoin ['-'] ((mergeChunks (bracketChunks body)).map escClass)

/-- Behind `wildcards/tree/tree.py:46`.
What a bracket expression becomes (`fnmatch.py:136-147`): `(?!)`, `.`, or a class with the given text between `[` and
`]`. -/
inductive ClassRx where
  | never
  | any
  | cls (text : Str)

/-- Behind `wildcards/tree/tree.py:46`.
`fnmatch.py:136-147`. -/
def classRx (body : Str) : ClassRx :=
  match classStuff body with
  | [] => .never
  | ['!'] => .any
  | '!' :: t => .cls ('^' :: t)
  | c :: t => if c == '^' || c == '[' then .cls ('\\' :: c :: t) else .cls (c :: t)

/-- Behind `wildcards/tree/tree.py:46`.
The next character of a class, whether it is escaped, and what follows (CPython `re/_parser.py`; only punctuation is
escaped here, and an escaped punctuation character is itself). -/
def sreGet : Str → Option (Char × Bool × Str)
  | [] => none
  | '\\' :: c :: s => some (c, true, s)
  | c :: s => some (c, false, s)

/-- Behind `wildcards/tree/tree.py:46`.
The ranges of a class and what follows its `]` (CPython `re/_parser.py` `_parse`, case `[`): a `]` is a character if it is
the first one, a range that is out of order is an error (`none`).  `n` bounds the length of the text. -/
def sreClass : Nat → Bool → Str → Option (List GRange × Str)
  | 0, _, _ => none
  | n + 1, first, s =>
    match sreGet s with
    | none => none
    | some (c, esc, s1) =>
      if c == ']' && !esc && !first then some ([], s1)
      else match s1 with
        | '-' :: s2 =>
          match sreGet s2 with
          | none => none
          | some (d, esc', s3) =>
            if d == ']' && !esc' then some ([(c, c), ('-', '-')], s3)
            else if d.toNat < c.toNat then none
            else (sreClass n false s3).map fun p => ((c, d) :: p.1, p.2)
        | _ => (sreClass n false s1).map fun p => ((c, c) :: p.1, p.2)

/-- Behind `wildcards/tree/tree.py:46`.
What `re` makes of a bracket expression followed by `more`: the characters it accepts, and what follows it; `none` is
`re.error`. -/
def classMeaning (body more : Str) : Option (GTok × Str) :=
  match classRx body with
  | .never => some (.set false [], more)
  | .any => some (.any, more)
  | .cls ('^' :: t) => (sreClass (t ++ ']' :: more).length true (t ++ ']' :: more)).map fun p => (.set true p.1, p.2)
  | .cls t => (sreClass (t ++ ']' :: more).length true (t ++ ']' :: more)).map fun p => (.set false p.1, p.2)

/-- Behind `wildcards/tree/tree.py:46`.
The pieces of a pattern as `re` sees them; `none` is `re.error`; `n` bounds the length of the pattern.  Models the first loop
of CPython 3.11 `fnmatch.translate` (`fnmatch.py:80-149`). -/
def reToksN : Nat → Str → Option (List GTok)
  | 0, _ => some []
  | _ + 1, [] => some []
  | n + 1, '*' :: cs => (reToksN n cs).map (.star :: ·)
  | n + 1, '?' :: cs => (reToksN n cs).map (.any :: ·)
  | n + 1, '[' :: cs =>
    match bracketSplit cs with
    | none => (reToksN n cs).map (.lit '[' :: ·)
    | some (body, rest) =>
      match classMeaning body [] with
      | none => none
      | some (t, _) => (reToksN n rest).map (t :: ·)
  | n + 1, c :: cs => (reToksN n cs).map (.lit c :: ·)

/-- `fnmatch.fnmatch(name, pat)` (`wildcards/tree/tree.py:46`): the regular expression is built, compiled (`none` is `re.error`)
and matched. -/
def fnmatchRe (name pat : Str) : Option Bool := (reToksN pat.length pat).map fun toks => rxMatch (translate toks) name

end Verif
