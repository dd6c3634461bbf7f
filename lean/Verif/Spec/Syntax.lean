import Verif.Model.Command
/-!
# The template language

A description of the template language that does not mention the parser: what the parts of a template
are, how each part is written, which command it stands for, and which templates are written
unambiguously, with comments (`# …` and `// …` to the end of the line, `/* … */`).  The marks that begin
and end the parts can be changed; wherever no marks are given, the default syntax is meant (`{…}`, `__…__`,
`${…}`, `%{…}`).
-/

namespace Verif.Spec

/-- The marks that begin and end the parts of a template. -/
structure Marks where
  variantStart : Str := c!"{"
  variantEnd : Str := c!"}"
  wildcardWrap : Str := c!"__"
  variableStart : Str := c!"${"
  variableEnd : Str := c!"}"
  wrapStart : Str := c!"%{"
  wrapEnd : Str := c!"}"

/-- White space of the template language. -/
def blank (c : Char) : Bool := [' ', '\t', '\r', '\n'].contains c

/-- Decimal digits. -/
def digit (c : Char) : Bool := "0123456789".toList.contains c

/-- The value of a digit. -/
def digitVal (c : Char) : Nat := "0123456789".toList.idxOf c

/-- The number written by a list of digits. -/
def natOf : Str → Nat
  | [] => 0
  | d :: ds => digitVal d * 10 ^ ds.length + natOf ds

/-- A weight: a whole part and possibly decimals, with a sign if there are decimals. -/
structure Num where
  whole : Str
  decimals : Option Str
  sign : Str := []

/-- A weight as written: `3`, `0.25`, `2.`, `.5` or `-0.5`. -/
def Num.source : Num → Str
  | ⟨w, none, _⟩ => w
  | ⟨w, some d, s⟩ => s ++ w ++ c!"." ++ d

/-- The value of a weight. -/
def Num.value : Num → Rat
  | ⟨w, none, _⟩ => natOf w
  | ⟨w, some d, s⟩ => (if s = c!"-" then -1 else 1) * (natOf w + (natOf d : Rat) / (10 ^ d.length : Nat))

/-- A weight is written with digits, and has at least one; signs are `+` and `-`. -/
def Num.ok : Num → Bool
  | ⟨w, none, _⟩ => w.all digit && w != []
  | ⟨w, some d, s⟩ => w.all digit && d.all digit && (w != [] || d != []) && [[], c!"+", c!"-"].contains s

/-- How many options a variant picks. -/
inductive Bound where
  | exact (n : Str)
  | between (lo hi : Str)
  | upTo (hi : Str)
  | atLeast (lo : Str)

/-- A bound as written: `2`, `1-3`, `-3` or `2-`. -/
def Bound.source : Bound → Str
  | .exact n => n
  | .between lo hi => lo ++ c!"-" ++ hi
  | .upTo hi => c!"-" ++ hi
  | .atLeast lo => lo ++ c!"-"

/-- A numeral. -/
def numeral (ds : Str) : Bool := ds.all digit && ds != []

/-- Bounds are written with numerals. -/
def Bound.ok : Bound → Bool
  | .exact n => numeral n
  | .between lo hi => numeral lo && numeral hi
  | .upTo hi => numeral hi
  | .atLeast lo => numeral lo

/-- The first and the last number a bound mentions; a missing lower bound is one, a missing upper bound
the number of options. -/
def Bound.ends (count : Nat) : Bound → Nat × Nat
  | .exact n => (natOf n, natOf n)
  | .between lo hi => (natOf lo, natOf hi)
  | .upTo hi => (1, natOf hi)
  | .atLeast lo => (natOf lo, count)

/-! ## Comments -/

/-- Where a reader of comments is: outside comments, just after a block comment, after a slash that begins
a comment, in a line comment, in a block comment, after a star in a block comment. -/
inductive Reader where
  | out
  | closed
  | slash
  | line
  | block
  | star
deriving DecidableEq

/-- The reader after the next character; `none`: this is neither white space nor a comment. A line comment
ends before the line break. -/
def Reader.step : Reader → Char → Option Reader
  | .out, c => if blank c then some .out else if c = '#' then some .line else if c = '/' then some .slash else none
  | .closed, c => if blank c then some .out else if c = '#' then some .line else if c = '/' then some .slash else none
  | .slash, c => if c = '/' then some .line else if c = '*' then some .block else none
  | .line, c => if c = '\n' then some .out else some .line
  | .block, c => if c = '*' then some .star else some .block
  | .star, c => if c = '/' then some .closed else if c = '*' then some .star else some .block

/-- The reader after a text. -/
def Reader.read : Reader → Str → Option Reader
  | r, [] => some r
  | r, c :: cs => match r.step c with
    | none => none
    | some r => r.read cs

/-- White space and comments, ended. -/
def gap (s : Str) : Bool := Reader.out.read s == some .out || Reader.out.read s == some .closed

/-- The text ends in a line comment that is not yet ended. -/
def openEnded (s : Str) : Bool := Reader.out.read s == some .line

/-- One or more comments, possibly with white space before and between them. -/
def comments (s : Str) : Bool := Reader.out.read s == some .closed || openEnded s

/-- The text begins, after white space, with a mark that begins a comment. -/
def marked (s : Str) : Bool :=
  match s.dropWhile blank with
  | '#' :: _ => true
  | '/' :: '/' :: _ => true
  | '/' :: '*' :: _ => true
  | _ => false

/-- A line of the text after the first begins, after white space, with such a mark. -/
def markedTail : Str → Bool
  | [] => false
  | c :: cs => (blank c && c != ' ' && marked cs) || markedTail cs

/-- A line of the text begins, after white space, with such a mark. -/
def markedLine (s : Str) : Bool := marked s || markedTail s

/-- The comments contain no `$`, and no line of a comment but its first begins with a mark that begins a
comment. -/
def calm : Reader → Str → Bool
  | _, [] => true
  | r, c :: cs => c != '$' &&
      !([Reader.line, .block, .star].contains r && blank c && c != ' ' && !(r == .line && c == '\n') &&
        marked cs) &&
      match r.step c with
      | none => true
      | some r => calm r cs

/-- White space and comments inside a part of a template. -/
def gapOk (s : Str) : Bool := gap s && calm .out s

mutual
/-- A part of a template. The fields called `w`, `w1`, … are optional white space and comments. -/
inductive Piece where
  /-- Plain text. -/
  | text (t : Str)
  /-- Comments, `# …`, `// …` or `/* … */`. -/
  | note (s : Str)
  /-- `{~2$$ and $$a|2::b}`: a variant with a sampling method, a bound and a separator. -/
  | choice (w : Str) (m : Option Method) (b : Option (Bound × Option Str)) (o : Opt) (more : List Opt)
  /-- `__~path(a=x,b=y)__`: a wildcard. -/
  | wild (m : Option Method) (path : List Piece) (params : List Param)
  /-- `${name}`. -/
  | get (w1 name w2 : Str)
  /-- `${name:default}`. -/
  | getD (w1 name w2 w3 : Str) (default : List Piece)
  /-- `${name=value}`, `${name=!value}`, `${name?=value}`, `${name?=!value}`. -/
  | set (w1 name w2 : Str) (keep now : Bool) (w3 : Str) (value : List Piece)
  /-- `%{wrapper$$inner}`. -/
  | wrap (w1 : Str) (wrapper : List Piece) (w2 : Str) (inner : List Piece)
/-- An option of a variant. -/
inductive Opt where
  | mk (w : Str) (weight : Option Num) (value : List Piece)
/-- A parameter of a wildcard. -/
inductive Param where
  | mk (name : Str) (value : List Piece)
end

/-- The name of a parameter. -/
def Param.name : Param → Str
  | .mk n _ => n

/-! ## How templates are written -/

/-- The symbol of a sampling method. -/
def methodSource : Option Method → Str
  | none => []
  | some .random => c!"~"
  | some .comb => c!"!"
  | some .cyc => c!"@"

/-- A bound and a separator as written. -/
def boundSource : Option (Bound × Option Str) → Str
  | none => []
  | some (b, none) => b.source ++ c!"$$"
  | some (b, some sep) => b.source ++ c!"$$" ++ sep ++ c!"$$"

/-- A weight as written. -/
def weightSource : Option Num → Str
  | none => []
  | some n => n.source ++ c!"::"

mutual
/-- A part of a template as written. -/
def Piece.source : Piece → (M : Marks := {}) → Str
  | .text t, _ => t
  | .note s, _ => s
  | .choice w m b o more, M =>
      M.variantStart ++ w ++ methodSource m ++ boundSource b ++ o.source M ++ optsSource more M ++ M.variantEnd
  | .wild m path [], M => M.wildcardWrap ++ methodSource m ++ source path M ++ M.wildcardWrap
  | .wild m path (p :: ps), M =>
      M.wildcardWrap ++ methodSource m ++ source path M ++ c!"(" ++ p.source M ++ paramsSource ps M ++ c!")" ++
        M.wildcardWrap
  | .get w1 n w2, M => M.variableStart ++ w1 ++ n ++ w2 ++ M.variableEnd
  | .getD w1 n w2 w3 d, M =>
      M.variableStart ++ w1 ++ n ++ w2 ++ c!":" ++ w3 ++ source d M ++ M.variableEnd
  | .set w1 n w2 keep now w3 v, M =>
      M.variableStart ++ w1 ++ n ++ w2 ++ (if keep then c!"?" else []) ++ c!"=" ++ (if now then c!"!" else []) ++
        w3 ++ source v M ++ M.variableEnd
  | .wrap w1 a w2 b, M => M.wrapStart ++ w1 ++ source a M ++ c!"$$" ++ w2 ++ source b M ++ M.wrapEnd
/-- A template as written. -/
def source : List Piece → (M : Marks := {}) → Str
  | [], _ => []
  | p :: ps, M => p.source M ++ source ps M
/-- An option as written. -/
def Opt.source : Opt → (M : Marks := {}) → Str
  | .mk w n v, M => w ++ weightSource n ++ Spec.source v M
/-- The options after the first. -/
def optsSource : List Opt → (M : Marks := {}) → Str
  | [], _ => []
  | o :: os, M => c!"|" ++ o.source M ++ optsSource os M
/-- A parameter as written. -/
def Param.source : Param → (M : Marks := {}) → Str
  | .mk n v, M => n ++ c!"=" ++ Spec.source v M
/-- The parameters after the first. -/
def paramsSource : List Param → (M : Marks := {}) → Str
  | [], _ => []
  | p :: ps, M => c!"," ++ p.source M ++ paramsSource ps M
end

/-- An option as written, without the white space and the comments before it. -/
def Opt.body : Opt → (M : Marks := {}) → Str
  | .mk _ n v, M => weightSource n ++ Spec.source v M

/-! ## What templates mean -/

/-- One command stands for itself, several form a sequence. -/
def together : List Cmd → Cmd
  | [c] => c
  | cs => .seq cs [] none

/-- The variant with the given options, method, bound and separator. -/
def variantOf (m : Option Method) (b : Option (Bound × Option Str)) (opts : List (Cmd × Rat)) : Cmd :=
  match b with
  | none => .variant opts 1 1 c!"," m
  | some (b, sep) =>
    let e := b.ends opts.length
    .variant opts (min e.1 e.2 : Nat) (max e.1 e.2 : Nat) (sep.getD c!",") m

/-- A path that is one literal is a name, any other path is a command. -/
def pathOf : Cmd → Str ⊕ Cmd
  | .lit l _ => .inl l
  | c => .inr c

/-- The default of a variable in a wildcard path: the default's text, or the variable's name. -/
def pathDefault (name : Str) : List Piece → Str
  | [.text t] => strip t
  | _ => name

/-- Text before commands: it is joined with a literal by a space. -/
def joinText (t : Str) : List Cmd → List Cmd
  | .lit s none :: cs => .lit (t ++ c!" " ++ s) none :: cs
  | cs => .lit t none :: cs

mutual
/-- The command a part of a template stands for (comments by themselves stand for no command, see
`meanings`). -/
def Piece.meaning : Piece → Cmd
  | .text t => .lit t none
  | .note _ => .lit [] none
  | .choice _ m b o more => variantOf m b (o.meaning :: optsMeaning more)
  | .wild m path ps => .wild (pathOf (together (pathMeaning path))) m (paramsMeaning ps)
  | .get _ n _ => .access n none
  | .getD _ n _ _ d => .access n (some (together (meanings d)))
  | .set _ n _ keep now _ v => .assign n (together (meanings v)) now (!keep)
  | .wrap _ a _ b => .wrap (together (meanings a)) (together (meanings b)) none
/-- The commands the parts of a template stand for: comments stand for nothing, and texts with only
comments between them are one literal, in which a space takes the place of the comments. -/
def meanings : List Piece → List Cmd
  | [] => []
  | .note _ :: ps => meanings ps
  | .text t :: ps => joinText t (meanings ps)
  | p :: ps => p.meaning :: meanings ps
/-- The same in the path of a wildcard, where a variable without a value stands for its default or its
own name. -/
def pathMeaning : List Piece → List Cmd
  | [] => []
  | .get _ n _ :: ps => .access n (some (.lit n none)) :: pathMeaning ps
  | .getD _ n _ _ d :: ps => .access n (some (.lit (pathDefault n d) none)) :: pathMeaning ps
  | p :: ps => p.meaning :: pathMeaning ps
/-- The value and the weight of an option. -/
def Opt.meaning : Opt → Cmd × Rat
  | .mk _ n v => (together (meanings v), match n with | none => 1 | some n => n.value)
/-- The options of a variant. -/
def optsMeaning : List Opt → List (Cmd × Rat)
  | [] => []
  | o :: os => o.meaning :: optsMeaning os
/-- The parameters of a wildcard. -/
def paramsMeaning : List Param → List (Str × Cmd)
  | [] => []
  | .mk n v :: ps => (n, together (meanings v)) :: paramsMeaning ps
end

/-- The command a template stands for. -/
def meaning (ps : List Piece) : Cmd := together (meanings ps)

/-! ## Which templates are written unambiguously -/

/-- Where a part of a template stands: in the template itself, in another part, in the path of a wildcard,
or in the value of a parameter of a wildcard. -/
inductive Place where
  | top
  | inside
  | path
  | param
deriving DecidableEq

/-- The characters plain text does not contain: those of the marks that begin a variant, a variable or a
wrap, and some others. -/
def Place.special (l : Place) (M : Marks := {}) : Str :=
  c!"#" ++ M.variantStart ++ M.variableStart ++ M.wrapStart ++
  match l with
  | .top => []
  | .inside => c!"|$" ++ M.variantEnd
  | .path => c!"()"
  | .param => []

/-- Plain text is not empty, and contains neither special characters nor the mark of wildcards. -/
def plain (l : Place) (t : Str) (M : Marks := {}) : Bool :=
  t != [] && t.all (fun c => !(l.special M).contains c) && !hasSub M.wildcardWrap t

/-- `s` begins with one of the characters `cs`. -/
def beginsWith (p : Char → Bool) (s : Str) : Bool := s.head?.any p

/-- `s` ends with a character that satisfies `p`. -/
def endsIn (p : Char → Bool) (s : Str) : Bool := s.getLast?.any p

/-- Symbols of sampling methods. -/
def symbol (c : Char) : Bool := c!"~!@".contains c

/-- Characters of a weight. -/
def weightChar (c : Char) : Bool := digit c || c!"+-.".contains c

/-- Letters. -/
def letter (c : Char) : Bool :=
  "abcdefghijklmnopqrstuvwxyzABCDEFGHIJKLMNOPQRSTUVWXYZ".toList.contains c

/-- Names of variables: letters, underscores, hyphens and, except at the beginning, digits. -/
def varName (n : Str) : Bool :=
  beginsWith (fun c => letter c || c!"_-".contains c) n &&
    n.all fun c => letter c || digit c || c!"_-".contains c

/-- Separators: visible ASCII characters and spaces, no `$`, `{` or `}`. -/
def separator (s : Str) : Bool :=
  s != [] && s.all (fun c => 32 ≤ c.toNat && c.toNat ≤ 126 && !c!"${}".contains c)

/-- A separator that does not look like a comment. -/
def separatorOk (s : Str) : Bool := separator s && !marked s

/-- Each of the marks that begin a variant, a variable or a wrap, or end a variant, has a character that no
separator has, and no plain text contains `$`. -/
def Marks.fenced (M : Marks) : Bool :=
  [M.variantStart, M.variantEnd, M.variableStart, M.wrapStart].all (fun d => d.any fun c => !separator [c]) &&
    (M.variantStart ++ M.variableStart ++ M.wrapStart).contains '$'

/-- No text inside a part goes on into the mark. -/
def Marks.closes (M : Marks) (d : Str) : Bool := beginsWith (Place.inside.special M).contains d

/-- Bounds are written with numerals, separators with their characters. Without a separator, there must be
no danger of taking the options for one. -/
def boundOk : Option (Bound × Option Str) → (M : Marks := {}) → Bool
  | none, _ => true
  | some (b, none), M => b.ok && M.fenced
  | some (b, some sep), _ => b.ok && separatorOk sep

/-- The character must not come before the mark of a wildcard: it belongs to the mark itself, or forms the
beginning of a comment with it. -/
def Marks.touches (M : Marks) (c : Char) : Bool :=
  M.wildcardWrap.contains c || (c == '/' && beginsWith (· == '*') M.wildcardWrap)

/-- A part may be followed by these parts: text is not followed by text, and text that ends with an
underscore (with a character of the mark of wildcards) is not followed by a wildcard. Comments after text
begin with `#`, and the text is not only white space. A line comment is followed by a line break, or by the
end of the template. -/
def follows (l : Place) (p : Piece) (ps : List Piece) (M : Marks := {}) : Bool :=
  match l, p, ps with
  | _, .text _, .text _ :: _ => false
  | _, .text t, .wild .. :: _ => !endsIn M.touches t
  | _, .text t, .note s :: _ => beginsWith (· == '#') s && !t.all blank
  | _, .note _, .note _ :: _ => false
  | l, .note s, ps => !openEnded s || (match ps with
      | .text t :: _ => beginsWith (· == '\n') t
      | [] => l == .top
      | _ => false)
  | _, _, _ => true

/-- Neither white space nor a comment comes first. -/
def upFront : List Piece → Bool
  | .text t :: _ => !beginsWith blank t
  | .note _ :: _ => false
  | _ => true

/-- The text at the beginning does not look like a weight. -/
def noWeight : List Piece → Bool
  | .text t :: ps => !c!"::".isPrefixOf (t.dropWhile weightChar) && noWeight ps
  | .note _ :: ps => noWeight ps
  | _ => true

/-- In the path of a wildcard the default of a variable is plain text. -/
def simple : List Piece → Bool
  | [] => true
  | [.text _] => true
  | _ => false

/-- Plain text at a place: no line of it begins with a mark that begins a comment (at the top, the first
line), nor does what comes after a number at its beginning. -/
def textOk (l : Place) (t : Str) (M : Marks := {}) : Bool :=
  plain l t M && !marked t &&
  match l with
  | .top => true
  | .inside => !markedLine t && !marked (t.dropWhile weightChar)
  | .path => !markedLine t && !t.all blank
  | .param => !markedLine t

/-- Neither the name nor the value of a parameter has white space around it, a comma or a parenthesis;
names have no `=` or `$`, and no line of them begins with a mark that begins a comment. -/
def paramOk (n v : Str) : Bool :=
  n.all (fun c => !c!"=,)$".contains c) && v.all (fun c => !c!",)".contains c) &&
    !beginsWith isSpace n && !endsIn isSpace n && !beginsWith isSpace v && !endsIn isSpace v &&
    !markedLine n

mutual
/-- The part is written unambiguously. -/
def Piece.ok : Place → Piece → (M : Marks := {}) → Bool
  | l, .text t, M => textOk l t M
  | l, .note s, _ => comments s && (l == .top || l == .inside && calm .out s)
  | _, .choice w m b o more, M =>
      gapOk w && boundOk b M && o.ok M && optsOk more M &&
        (m.isSome || b.isSome || !beginsWith symbol (o.body M))
  | l, .wild m path ps, M =>
      l != .path && path.length != 0 && ok .path path M && !endsIn M.touches (source path M) &&
        (m.isSome || !beginsWith symbol (source path M)) && paramsOk ps M
  | _, .get w1 n w2, _ => gapOk w1 && gapOk w2 && varName n
  | l, .getD w1 n w2 w3 d, M =>
      M.closes M.variableEnd && gapOk w1 && gapOk w2 && gapOk w3 && varName n && ok .inside d M && upFront d &&
        (l != .path || simple d)
  | l, .set w1 n w2 _ now w3 v, M =>
      M.closes M.variableEnd && (l == .top || l == .param) && gapOk w1 && gapOk w2 && gapOk w3 && varName n &&
        ok .inside v M && upFront v && (now || !beginsWith (· == '!') (source v M) || endsIn blank w3)
  | l, .wrap w1 a w2 b, M =>
      M.closes M.wrapEnd && l != .path && gapOk w1 && gapOk w2 && ok .inside a M && ok .inside b M &&
        upFront a && upFront b
/-- The template is written unambiguously. -/
def ok : Place → List Piece → (M : Marks := {}) → Bool
  | _, [], _ => true
  | l, p :: ps, M => p.ok l M && ok l ps M && follows l p ps M
/-- The option is written unambiguously: without a weight, its text does not look as if it had one. -/
def Opt.ok : Opt → (M : Marks := {}) → Bool
  | .mk w none v, M => gapOk w && Spec.ok .inside v M && upFront v && noWeight v
  | .mk w (some n) v, M => gapOk w && n.ok && Spec.ok .inside v M
/-- The options are written unambiguously. -/
def optsOk : List Opt → (M : Marks := {}) → Bool
  | [], _ => true
  | o :: os, M => o.ok M && optsOk os M
/-- The parameters are written unambiguously, and have different names. -/
def paramsOk : List Param → (M : Marks := {}) → Bool
  | [], _ => true
  | .mk n v :: ps, M => ok .param v M && paramOk n (source v M) && !(ps.map Param.name).contains n &&
      paramsOk ps M
end

/-! ## Which marks can be used -/

/-- One of the marks is the beginning of the other. -/
def clash (a b : Str) : Bool := a.isPrefixOf b || b.isPrefixOf a

/-- A mark can be used: it is not empty, has neither white space nor `#` or `/`, and no `$` that could be
taken for a part of `$$`. -/
def markOk (d : Str) : Bool :=
  d != [] && d.all (fun c => !blank c && c != '#' && c != '/') && !hasSub c!"$$" d && !endsIn (· == '$') d

/-- The marks can be used. None of those that begin a part is like another one or like one that ends a part;
no mark begins with a letter, a digit or a character that would be taken for something else. Letters and
digits outside ASCII are given by `al`. -/
def Marks.usable (M : Marks) (al : Char → Bool) : Bool :=
  let opening := [M.variantStart, M.variableStart, M.wrapStart]
  let closing := [M.variantEnd, M.variableEnd, M.wrapEnd]
  (M.wildcardWrap :: opening ++ closing).all (fun d =>
    markOk d && !beginsWith (fun c => letter c || digit c || 128 ≤ c.toNat && al c || c!":(|".contains c) d) &&
  (M.wildcardWrap :: opening).all (fun a => closing.all fun b => !clash a b) &&
  !clash M.variantStart M.variableStart && !clash M.variantStart M.wrapStart &&
  !clash M.variableStart M.wrapStart && opening.all (fun a => !clash M.wildcardWrap a) &&
  opening.all (fun d => !beginsWith c!"+-.*".contains d) &&
  closing.all (fun d => !beginsWith c!"_+-.*?=~!@".contains d) &&
  M.wildcardWrap.all (fun c => !(c!"|$(" ++ (opening ++ closing).filterMap List.head?).contains c) &&
  (!beginsWith c!"+-.".contains M.wildcardWrap || c!"++".isPrefixOf M.wildcardWrap)

end Verif.Spec
