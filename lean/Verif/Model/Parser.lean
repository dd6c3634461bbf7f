import Verif.Model.Monad
import Verif.Model.Files
/-!
# The template parser

Models `parser/parse.py` and `parser/config.py`.  Paths are relative to `src/dynamicprompts`.

The grammar is written with pyparsing.  Each function below models one grammar element together with
its parse action, as pyparsing 3.1.0 (`core.py`) runs it: ordered choice without backtracking into an
alternative that matched (`MatchFirst`), greedy repetition (`_MultipleMatch`), and, because every
element of the grammar has been given the comment expressions by `prompt.ignore`
(`parser/parse.py:504-507`), comments are skipped before every element.  White space is skipped before
no element (`leave_whitespace` is applied to every element, recursively).  A position in the text is
represented by the rest of the text.
-/

namespace Verif

/-- Models `parser/config.py:7-15` `ParserConfig`; `alnum` is `str.isalnum` on one character that is not
ASCII (a table of the Python library). -/
structure ParserCfg where
  variantStart : Str := c!"{"
  variantEnd : Str := c!"}"
  wildcardWrap : Str := c!"__"
  variableStart : Str := c!"${"
  variableEnd : Str := c!"}"
  wrapStart : Str := c!"%{"
  wrapEnd : Str := c!"}"
  alnum : Char → Bool

/-- Models `parser/config.py:18` `default_parser_config`. -/
def ParserCfg.default (alnum : Char → Bool) : ParserCfg := { alnum := alnum }

/-- Outcome of a grammar element: a result and the rest of the text, `ParseException` (the caller tries
something else), another exception (it ends parsing), or no answer within the fuel. -/
inductive P (α : Type) where
  | ok (a : α) (rest : Str)
  | fail
  | err (e : Err)
  | fuel
deriving DecidableEq

/-- Sequence (`And`, pyparsing `core.py:4013-4038`). -/
def P.bind {α β : Type} (x : P α) (f : α → Str → P β) : P β :=
  match x with
  | .ok a r => f a r
  | .fail => .fail
  | .err e => .err e
  | .fuel => .fuel

/-- Ordered choice (`MatchFirst`, pyparsing `core.py:4266-4304`). -/
def P.or {α : Type} (x y : P α) : P α :=
  match x with
  | .fail => y
  | x => x

/-- `Opt` (pyparsing `core.py:5211-5226`): what comes after it starts at `s` if nothing matches. -/
def P.opt {α : Type} (x : P α) (s : Str) : P (Option α) :=
  match x with
  | .ok a r => .ok (some a) r
  | .fail => .ok none s
  | .err e => .err e
  | .fuel => .fuel

/-- `OneOrMore` and `ZeroOrMore` with a condition that ends the repetition (`_MultipleMatch`, pyparsing
`core.py:4967-4995`); the fuel is one more than the length of the text. -/
def many {α : Type} (stop : Str → Bool) (p : Str → P α) : Nat → Str → P (List α)
  | 0, _ => .fuel
  | n + 1, s =>
    if stop s then .ok [] s
    else match p s with
      | .ok a r => (many stop p n r).bind fun as r' => .ok (a :: as) r'
      | .fail => .ok [] s
      | .err e => .err e
      | .fuel => .fuel

/-! ## Characters -/

/-- The white space of pyparsing (`core.py` `DEFAULT_WHITE_CHARS` and `White`). -/
def isWs (c : Char) : Bool := c == ' ' || c == '\t' || c == '\r' || c == '\n'

/-- `pp.nums`. -/
def isNum (c : Char) : Bool := '0'.toNat ≤ c.toNat && c.toNat ≤ '9'.toNat

/-- `pp.alphas`. -/
def isAlpha (c : Char) : Bool :=
  ('a'.toNat ≤ c.toNat && c.toNat ≤ 'z'.toNat) || ('A'.toNat ≤ c.toNat && c.toNat ≤ 'Z'.toNat)

/-- `pp.printables + " "`: the visible ASCII characters and the space. -/
def isPrintable (c : Char) : Bool := 0x20 ≤ c.toNat && c.toNat ≤ 0x7e

/-- `str.isalnum` on one character. -/
def ParserCfg.isAlnum (cfg : ParserCfg) (c : Char) : Bool :=
  if c.toNat < 128 then isAlpha c || isNum c else cfg.alnum c

/-- Python `s.expandtabs()`, called by `parse_string` (pyparsing `core.py:1174`): tabs go to the next
multiple of eight; `col` is the column. -/
def expandTabs (col : Nat) : Str → Str
  | [] => []
  | c :: cs =>
    if c = '\t' then List.replicate (8 - col % 8) ' ' ++ expandTabs 0 cs
    else if c = '\n' ∨ c = '\r' then c :: expandTabs 0 cs
    else c :: expandTabs (col + 1) cs

/-! ## Comments -/

/-- The text after the first `*/`. -/
def closeComment : Str → Option Str
  | [] => none
  | c :: cs =>
    match c, cs with
    | '*', '/' :: r => some r
    | _, _ => closeComment cs

/-- The text after a comment, if there is one at the beginning, possibly after white space: the
expressions given to `prompt.ignore`, `parser/parse.py:504-507`. -/
def comment (s : Str) : Option Str :=
  match s.dropWhile isWs with
  | '#' :: r => some (r.dropWhile (· ≠ '\n'))
  | '/' :: '/' :: r => some (r.dropWhile (· ≠ '\n'))
  | '/' :: '*' :: r => closeComment r
  | _ => none

/-- Loop of `_skipIgnorables` (pyparsing `core.py:769-783`); the fuel is the length of the text. -/
def skipN : Nat → Str → Str
  | 0, s => s
  | n + 1, s =>
    match comment s with
    | none => s
    | some r => skipN n r

/-- Skip all comments at the beginning. White space that no comment follows is not skipped. -/
def skip (s : Str) : Str := skipN s.length s

/-! ## Tokens -/

/-- `pp.Literal(t)` and `pp.Suppress(t)`. -/
def tok (t : Str) (s : Str) : P Unit :=
  if startsWith (skip s) t then .ok () ((skip s).drop t.length) else .fail

/-- `OPT_WS`, `parser/parse.py:69`. -/
def optWs (s : Str) : Str := (skip s).dropWhile isWs

/-- The number written by digits. -/
def numVal (ds : Str) : Nat := ds.foldl (fun n c => 10 * n + (c.toNat - '0'.toNat)) 0

/-- `pp.common.integer` (pyparsing `common.py:164`). -/
def intTok (s : Str) : P Nat :=
  let ds := (skip s).takeWhile isNum
  if ds.isEmpty then .fail else .ok (numVal ds) ((skip s).drop ds.length)

/-- The number written by the digits before and after a decimal point. -/
def decVal (a b : Str) : Rat := (numVal (a ++ b) : Rat) / (10 ^ b.length : Nat)

/-- `pp.common.real` (pyparsing `common.py:193-197`): `[+-]?(?:\d+\.\d*|\.\d+)`; only ASCII digits are
digits here. -/
def realTok (s : Str) : P Rat :=
  let t := skip s
  let neg := t.head? == some '-'
  let u := if t.head? == some '-' || t.head? == some '+' then t.drop 1 else t
  let a := u.takeWhile isNum
  match u.drop a.length with
  | '.' :: v =>
    let b := v.takeWhile isNum
    if a.isEmpty && b.isEmpty then .fail
    else .ok (if neg then - decVal a b else decVal a b) (v.drop b.length)
  | _ => .fail

/-- `var_name`, `parser/parse.py:71`. -/
def nameTok (s : Str) : P Str :=
  match skip s with
  | [] => .fail
  | c :: cs =>
    if isAlpha c || c == '_' || c == '-' then
      let w := cs.takeWhile fun c => isAlpha c || isNum c || c == '_' || c == '-'
      .ok (c :: w) (cs.drop w.length)
    else .fail

/-- `sampler_symbol` with `_parse_sampling_method`, `parser/parse.py:62-77`, `:315-323`. -/
def samplerTok (s : Str) : P Method :=
  match skip s with
  | '~' :: r => .ok .random r
  | '!' :: r => .ok .comb r
  | '@' :: r => .ok .cyc r
  | _ => .fail

/-- A match of the regular expression `((?!wrap)[^chars])+` of `parser/parse.py:175-177`, possibly
empty, and the rest; `ex` says which characters are excluded. -/
def litRun (wrap : Str) (ex : Char → Bool) : Str → Str × Str
  | [] => ([], [])
  | c :: cs =>
    if ex c || startsWith (c :: cs) wrap then ([], c :: cs)
    else (c :: (litRun wrap ex cs).1, (litRun wrap ex cs).2)

/-- The pieces of a literal that comments separate, `parser/parse.py:180`; the fuel is the length of the
text. -/
def litPieces (wrap : Str) (ex : Char → Bool) : Nat → Str → List Str × Str
  | 0, s => ([], s)
  | n + 1, s =>
    let r := litRun wrap ex (skip s)
    if r.1.isEmpty then ([], s)
    else
      let m := litPieces wrap ex n r.2
      (r.1 :: m.1, m.2)

/-- `literal_sequence` with `_parse_literal_command`, `parser/parse.py:145-182`, `:274-276`. -/
def literal (wrap : Str) (ex : Char → Bool) (s : Str) : P Cmd :=
  let r := litPieces wrap ex s.length s
  if r.1.isEmpty then .fail else .ok (.lit (pyJoin [' '] r.1) none) r.2

/-- The characters no literal contains, `parser/parse.py:155-159`. -/
def ParserCfg.special (cfg : ParserCfg) (c : Char) : Bool :=
  ('#' :: cfg.variantStart ++ cfg.variableStart ++ cfg.wrapStart).contains c

/-- The characters no literal in a variant contains, `parser/parse.py:161-166`. -/
def ParserCfg.variantSpecial (cfg : ParserCfg) (c : Char) : Bool :=
  cfg.special c || (c!"|$" ++ cfg.variantEnd).contains c

/-- The characters no literal in a wildcard path contains, `parser/parse.py:168-172`. -/
def ParserCfg.wildcardSpecial (cfg : ParserCfg) (c : Char) : Bool :=
  cfg.special c || c == ')' || c == '('

/-! ## Bounds -/

/-- The four forms of a bound, `parser/parse.py:92-100`. -/
inductive BoundSpec where
  | exact (n : Nat)
  | between (lo hi : Nat)
  | upTo (hi : Nat)
  | atLeast (lo : Nat)
deriving DecidableEq

/-- `bound_range`, `parser/parse.py:93-100`. -/
def boundRangeTok (s : Str) : P BoundSpec :=
  P.or ((intTok s).bind fun lo s => (tok c!"-" s).bind fun _ s => (intTok s).bind fun hi s =>
      .ok (.between lo hi) s)
    (P.or ((tok c!"-" s).bind fun _ s => (intTok s).bind fun hi s => .ok (.upTo hi) s)
      (P.or ((intTok s).bind fun lo s => (tok c!"-" s).bind fun _ s => .ok (.atLeast lo) s)
        ((intTok s).bind fun n s => .ok (.exact n) s)))

/-- Characters of a separator, `parser/parse.py:88-90`. -/
def isSepChar (c : Char) : Bool := isPrintable c && c != '$' && c != '{' && c != '}'

/-- `separator + variant_delim`, `parser/parse.py:104`. -/
def sepTok (s : Str) : P Str :=
  let w := (skip s).takeWhile isSepChar
  if w.isEmpty then .fail
  else (tok c!"$$" ((skip s).drop w.length)).bind fun _ r => .ok w r

/-- `bound_expr`, `parser/parse.py:101-105`; the default separator is a comma. -/
def boundExpr (s : Str) : P (BoundSpec × Str) :=
  (boundRangeTok s).bind fun b s =>
  (tok c!"$$" s).bind fun _ s =>
  (P.opt (sepTok s) (skip s)).bind fun sep s => .ok (b, sep.getD c!",") s

/-- Models `parser/parse.py:373-393` `_parse_bound_expr`. -/
def BoundSpec.bounds (count : Nat) : BoundSpec → Int × Int
  | .exact n => (n, n)
  | .between lo hi => (lo, hi)
  | .upTo hi => (1, hi)
  | .atLeast lo => (lo, count)

/-! ## Commands

`vp` is the element `variant_prompt`, `pv` parses the value of a wildcard parameter. -/

/-- Models `parser/parse.py:279-284` `_parse_sequence_or_single_command`. -/
def seqCmd : List Cmd → Cmd
  | [c] => c
  | cs => .seq cs [] none

/-- `weight`, `parser/parse.py:185-189`. -/
def weightTok (s : Str) : P Rat :=
  (P.or (realTok s) ((intTok s).bind fun n s => .ok (n : Rat) s)).bind fun q s =>
  (tok c!"::" s).bind fun _ s => .ok q s

/-- `variant`, `parser/parse.py:202-204`: a value and its weight. -/
def optionTok (vp : Str → P Cmd) (s : Str) : P (Cmd × Rat) :=
  let s := optWs s
  (P.opt (weightTok s) (skip s)).bind fun w s =>
  (vp s).bind fun c s => .ok (c, w.getD 1) (optWs s)

/-- `variants_list`, `parser/parse.py:205`. -/
def optionsTok (vp : Str → P Cmd) (s : Str) : P (List (Cmd × Rat)) :=
  (optionTok vp s).bind fun o s =>
  (many (fun _ => false) (fun s => (tok c!"|" s).bind fun _ s => optionTok vp s) (s.length + 1)
    (skip s)).bind fun os s => .ok (o :: os) s

/-- Models `parser/parse.py:287-312` `_parse_variant_command`. -/
def variantCmd (m : Option Method) (b : Option (BoundSpec × Str)) (opts : List (Cmd × Rat)) : Cmd :=
  match b with
  | none => .mkVariant opts 1 1 c!"," m
  | some (b, sep) => .mkVariant opts (b.bounds opts.length).1 (b.bounds opts.length).2 sep m

/-- `variants`, `parser/parse.py:192-218`. -/
def variantsTok (cfg : ParserCfg) (vp : Str → P Cmd) (s : Str) : P Cmd :=
  (tok cfg.variantStart s).bind fun _ s =>
  let s := optWs s
  (P.opt (samplerTok s) (skip s)).bind fun m s =>
  (P.opt (boundExpr s) (skip s)).bind fun b s =>
  (optionsTok vp (optWs s)).bind fun opts s =>
  (tok cfg.variantEnd (optWs s)).bind fun _ s => .ok (variantCmd m b opts) s

/-- The part of `variable_access` before its parse action, `parser/parse.py:221-234`: the name and the
default. -/
def accessTok (cfg : ParserCfg) (vp : Str → P Cmd) (s : Str) : P (Str × Option Cmd) :=
  (tok cfg.variableStart s).bind fun _ s =>
  (nameTok (optWs s)).bind fun name s =>
  let s := optWs s
  (P.opt ((tok c!":" s).bind fun _ s => vp (optWs s)) (skip s)).bind fun d s =>
  (tok cfg.variableEnd (optWs s)).bind fun _ s => .ok (name, d) s

/-- `variable_access`, with `parser/parse.py:396-400` `_parse_variable_access_command`. -/
def variableAccess (cfg : ParserCfg) (vp : Str → P Cmd) (s : Str) : P Cmd :=
  (accessTok cfg vp s).bind fun nd s => .ok (.access nd.1 nd.2) s

/-- Models `parser/parse.py:403-412` `_parse_wildcard_variable_access_command`: a default that is not a
literal has no attribute `literal`. -/
def wildcardVariableAccess (cfg : ParserCfg) (vp : Str → P Cmd) (s : Str) : P Cmd :=
  (accessTok cfg vp s).bind fun nd s =>
    match (match nd.2 with
      | some d => if d.truthy then d else .lit nd.1 none
      | none => .lit nd.1 none) with
    | .lit l _ => .ok (.access nd.1 (some (.lit (strip l) none))) s
    | _ => .err .attr

/-- `variable_assignment`, `parser/parse.py:237-254`, with `:415-424`
`_parse_variable_assignment_command`. -/
def variableAssignment (cfg : ParserCfg) (vp : Str → P Cmd) (s : Str) : P Cmd :=
  (tok cfg.variableStart s).bind fun _ s =>
  (nameTok (optWs s)).bind fun name s =>
  let s := optWs s
  (P.opt (tok c!"?" s) (skip s)).bind fun keep s =>
  (tok c!"=" s).bind fun _ s =>
  (P.opt (tok c!"!" s) (skip s)).bind fun imm s =>
  (vp (optWs s)).bind fun value s =>
  (tok cfg.variableEnd (optWs s)).bind fun _ s =>
    .ok (.assign name value imm.isSome (!keep.isSome)) s

/-- `wrap_command`, `parser/parse.py:257-271`, with `:427-434` `_parse_wrap_command`. -/
def wrapCommand (cfg : ParserCfg) (vp : Str → P Cmd) (s : Str) : P Cmd :=
  (tok cfg.wrapStart s).bind fun _ s =>
  (vp (optWs s)).bind fun wrapper s =>
  (tok c!"$$" (optWs s)).bind fun _ s =>
  (vp (optWs s)).bind fun inner s =>
  (tok cfg.wrapEnd s).bind fun _ s => .ok (.wrap wrapper inner none) s

/-- `wildcard_prompt`, `parser/parse.py:493-498`, `:502`: the white space before `(` is skipped when
looking for the end. -/
def wildcardPath (cfg : ParserCfg) (vp : Str → P Cmd) (s : Str) : P Cmd :=
  (many (fun s => (s.dropWhile isWs).head? == some '(')
    (fun s =>
      P.or (wildcardVariableAccess cfg vp s)
        (P.or (variantsTok cfg vp s)
          (P.or (literal cfg.wildcardWrap cfg.wildcardSpecial s)
            (literal cfg.wildcardWrap cfg.variantSpecial s))))
    (s.length + 1) (skip s)).bind fun cs s => if cs.isEmpty then .fail else .ok (seqCmd cs) s

/-- `wildcard_variable_spec`, `parser/parse.py:115-120`: the text in the parentheses. -/
def specTok (s : Str) : P Str :=
  (tok c!"(" (optWs s)).bind fun _ s =>
    let w := (skip s).takeWhile (· ≠ ')')
    if w.isEmpty then .fail
    else (tok c!")" ((skip s).drop w.length)).bind fun _ r => .ok w r

/-- Models `parser/parse.py:326-341` `_parse_variable_spec`; the rest of the text is not used. -/
def parseSpec (pv : Str → P Cmd) : List Str → P (List (Str × Cmd))
  | [] => .ok [] []
  | pair :: ps =>
    let key := pair.takeWhile (· ≠ '=')
    let value := strip (pair.drop (key.length + 1))
    (pv value).bind fun c _ => (parseSpec pv ps).bind fun l _ => .ok ((strip key, c) :: l) []

/-- Models `parser/parse.py:344-370` `_parse_wildcard_command`. -/
def wildcardCmd (m : Option Method) (path : Cmd) (vars : List (Str × Cmd)) : Cmd :=
  match path with
  | .lit l _ => .wild (.inl l) m vars
  | c => .wild (.inr c) m vars

/-- `wildcard`, `parser/parse.py:110-131` with its parse action; `dict` keeps the last value of a
name. -/
def wildcardTok (cfg : ParserCfg) (vp pv : Str → P Cmd) (s : Str) : P Cmd :=
  (tok cfg.wildcardWrap s).bind fun _ s =>
  (P.opt (samplerTok s) (skip s)).bind fun m s =>
  (wildcardPath cfg vp s).bind fun path s =>
  (P.opt (specTok s) (skip s)).bind fun spec s =>
  (tok cfg.wildcardWrap s).bind fun _ s =>
    match spec with
    | none => .ok (wildcardCmd m path []) s
    | some w => (parseSpec pv (splitChar ',' w)).bind fun vars _ =>
        .ok (wildcardCmd m path (Dict.update [] vars)) s

/-- `variant_chunk`, `parser/parse.py:490-492`. -/
def variantChunk (cfg : ParserCfg) (vp pv : Str → P Cmd) (s : Str) : P Cmd :=
  P.or (variableAccess cfg vp s)
    (P.or (wrapCommand cfg vp s)
      (P.or (variantsTok cfg vp s)
        (P.or (wildcardTok cfg vp pv s)
          (literal cfg.wildcardWrap cfg.variantSpecial s))))

/-- `chunk`, `parser/parse.py:482-489`. -/
def chunk (cfg : ParserCfg) (vp pv : Str → P Cmd) (s : Str) : P Cmd :=
  P.or (variableAssignment cfg vp s)
    (P.or (variableAccess cfg vp s)
      (P.or (wrapCommand cfg vp s)
        (P.or (variantsTok cfg vp s)
          (P.or (wildcardTok cfg vp pv s)
            (literal cfg.wildcardWrap cfg.special s)))))

/-- `variant_prompt`, `parser/parse.py:501`, `:520`. -/
def variantPrompt (cfg : ParserCfg) (vp pv : Str → P Cmd) (s : Str) : P Cmd :=
  (many (fun _ => false) (variantChunk cfg vp pv) (s.length + 1) (skip s)).bind fun cs s =>
    .ok (seqCmd cs) s

/-- `prompt` followed by the end of the text (`parser/parse.py:500`, `:519`; pyparsing
`core.py:1175-1180`): the end may be preceded by comments and white space. -/
def promptTok (cfg : ParserCfg) (vp pv : Str → P Cmd) (s : Str) : P Cmd :=
  (many (fun _ => false) (chunk cfg vp pv) (s.length + 1) (skip s)).bind fun cs s =>
    if optWs s = [] then .ok (seqCmd cs) [] else .fail

/-- Models `parser/parse.py:545-566` `parse` on a text without tabs. -/
def parseTok (cfg : ParserCfg) (vp pv : Str → P Cmd) (s : Str) : P Cmd :=
  if !s.isEmpty && s.all cfg.isAlnum then .ok (.lit s none) []
  else promptTok cfg vp pv s

/-- The recursive elements `variant_prompt` and `parse`, up to a depth of nesting
(`parser/parse.py:443-445`, `:545`). -/
def parsers (cfg : ParserCfg) : Nat → (Str → P Cmd) × (Str → P Cmd)
  | 0 => (fun _ => .fuel, fun _ => .fuel)
  | n + 1 => (variantPrompt cfg (parsers cfg n).1 (parsers cfg n).2,
      parseTok cfg (parsers cfg n).1 (parsers cfg n).2)

/-- Models `parser/parse.py:545-566` `parse`, with elements nested up to `depth` deep; `none` if that is
not deep enough. Tabs are expanded first (`parse_string`, pyparsing `core.py:1174`); an alphanumeric text
has none, and the values of wildcard parameters, which are parsed by themselves, are parts of a text
without tabs. Python's recursion limit is not modelled. -/
def parseAt (cfg : ParserCfg) (depth : Nat) (s : Str) : Option (Except Err Cmd) :=
  match (parsers cfg depth).2 (expandTabs 0 s) with
  | .ok c _ => some (.ok c)
  | .fail => some (.error .parse)
  | .err e => some (.error e)
  | .fuel => none

/-- Models `parser/parse.py:545-566` `parse`: no template is nested deeper than its length
(`Props.parsing_ends`). -/
def parse (cfg : ParserCfg) (s : Str) : Except Err Cmd :=
  (parseAt cfg ((expandTabs 0 s).length + 1) s).getD (.error .runtime)

/-! ## The cache of parsers -/

/-- Equality of configurations, `parser/config.py:6`: a frozen dataclass. -/
def ParserCfg.sameAs (a b : ParserCfg) : Bool :=
  a.variantStart == b.variantStart && a.variantEnd == b.variantEnd && a.wildcardWrap == b.wildcardWrap &&
  a.variableStart == b.variableStart && a.variableEnd == b.variableEnd && a.wrapStart == b.wrapStart &&
  a.wrapEnd == b.wrapEnd

/-- `_parser_cache`, `parser/parse.py:525-528`: configurations and the parsers made for them. -/
abbrev ParserCache := List (ParserCfg × (Str → Except Err Cmd))

/-- Models `parser/parse.py:531-542` `get_cached_parser`. -/
def getCachedParser (cache : ParserCache) (cfg : ParserCfg) : (Str → Except Err Cmd) × ParserCache :=
  match cache.find? fun e => e.1.sameAs cfg with
  | some e => (e.2, cache)
  | none => (parse cfg, (cfg, parse cfg) :: cache)

/-- Models `parser/parse.py:545-566` `parse` with the cache. -/
def cachedParse (cache : ParserCache) (cfg : ParserCfg) (s : Str) : Except Err Cmd × ParserCache :=
  if !s.isEmpty && s.all cfg.isAlnum then (.ok (.lit s none), cache)
  else ((getCachedParser cache cfg).1 s, (getCachedParser cache cfg).2)

/-- What happens to the cache: a text is parsed, or configurations that are no longer used disappear (it
is a `WeakKeyDictionary`). -/
inductive CacheEvent where
  | parse (cfg : ParserCfg) (s : Str)
  | collect (gone : ParserCfg → Bool)

/-- A history of the cache; the results of the calls of `parse`. -/
def cacheRun (cache : ParserCache) : List CacheEvent → List (Except Err Cmd)
  | [] => []
  | .parse cfg s :: es => (cachedParse cache cfg s).1 :: cacheRun (cachedParse cache cfg s).2 es
  | .collect gone :: es => cacheRun (cache.filter fun e => !gone e.1) es

end Verif
