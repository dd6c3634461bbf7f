import Verif.Spec.Syntax
import Verif.Model.Files
/-!
# A grammar of templates

`Readable M al g s r`: at the beginning of the text `s` one can read `g` (a part of a template, several parts, the options
of a variant, a whole template), and `r` is left.  Unlike `Piece.ok`, which describes templates that can be read in
one way only, the grammar allows whatever can be read in some way; it does not say which way is taken.
-/

namespace Verif.Spec

/-- Comments at the beginning of a text: `# …` or `// …` to the end of the line, and `/* … */`, each possibly after
white space. -/
inductive Notes : Str → Str → Prop
  | none {s} : Notes s s
  | line {w m b r t} : w.all blank = true → m = c!"#" ∨ m = c!"//" → '\n' ∉ b → r = [] ∨ (∃ r', r = '\n' :: r') →
      Notes r t → Notes (w ++ (m ++ (b ++ r))) t
  | block {w b r t} : w.all blank = true → hasSub c!"*/" (b ++ c!"*") = false → Notes r t →
      Notes (w ++ (c!"/*" ++ (b ++ (c!"*/" ++ r)))) t

/-- White space and comments at the beginning of a text. -/
inductive Gap : Str → Str → Prop
  | none {s} : Gap s s
  | blank {c s t} : blank c = true → Gap s t → Gap (c :: s) t
  | notes {s t u} : Notes s t → Gap t u → Gap s u

/-- A given text, possibly after comments. -/
def Mark (d s r : Str) : Prop := Notes s (d ++ r)

/-- A symbol of a sampling method, or none. -/
inductive MethodAt : Option Method → Str → Str → Prop
  | none {s} : MethodAt none s s
  | some {m s r} : Mark (methodSource (some m)) s r → MethodAt (some m) s r

/-- A number of options. -/
inductive BoundAt : Bound → Str → Str → Prop
  | exact {n s r} : numeral n = true → Mark n s r → BoundAt (.exact n) s r
  | between {lo hi s t u r} : numeral lo = true → numeral hi = true → Mark lo s t → Mark c!"-" t u → Mark hi u r →
      BoundAt (.between lo hi) s r
  | upTo {hi s t r} : numeral hi = true → Mark c!"-" s t → Mark hi t r → BoundAt (.upTo hi) s r
  | atLeast {lo s t r} : numeral lo = true → Mark lo s t → Mark c!"-" t r → BoundAt (.atLeast lo) s r

/-- A number of options and a separator, each followed by `$$`, or nothing. -/
inductive BoundsAt : Option (Bound × Option Str) → Str → Str → Prop
  | none {s} : BoundsAt none s s
  | bound {b s t r} : BoundAt b s t → Mark c!"$$" t r → BoundsAt (some (b, none)) s r
  | sep {b sep s t u v r} : BoundAt b s t → Mark c!"$$" t u → separator sep = true → Mark sep u v → Mark c!"$$" v r →
      BoundsAt (some (b, some sep)) s r

/-- A weight followed by `::`, or nothing. -/
inductive WeightAt : Rat → Str → Str → Prop
  | none {s} : WeightAt 1 s s
  | some {n s t r} : Num.ok n = true → Mark n.source s t → Mark c!"::" t r → WeightAt n.value s r

/-- Plain text, in pieces that comments separate: no piece is empty or contains a special character, and the mark of
wildcards does not begin in it. -/
inductive TextAt (M : Marks) (l : Place) : List Str → Str → Str → Prop
  | one {u s r} : u ≠ [] → (∀ c ∈ u, c ∉ l.special M) → (∀ a b, u = a ++ b → b ≠ [] → ¬ M.wildcardWrap <+: b ++ r) →
      Mark u s r → TextAt M l [u] s r
  | more {u us s t r} : TextAt M l [u] s t → TextAt M l us t r → TextAt M l (u :: us) s r

/-- A parameter of a wildcard as written, its name and its value. -/
inductive ParamAt : Str → Str → Str → Prop
  | value {k v} : '=' ∉ k → ParamAt (k ++ c!"=" ++ v) (strip k) (strip v)
  | bare {k} : '=' ∉ k → ParamAt k (strip k) []

/-- A parameter of a wildcard. -/
structure RawParam where
  text : Str
  name : Str
  value : Str
  cmd : Cmd

/-- Letters and digits; those outside ASCII are given by `al`. -/
def alphanumeric (al : Char → Bool) (c : Char) : Bool :=
  if c.toNat < 128 then letter c || digit c else al c

/-- What can be read. -/
inductive Goal where
  | part (l : Place) (c : Cmd)
  | parts (l : Place) (cs : List Cmd)
  | options (os : List (Cmd × Rat))
  | template (c : Cmd)

/-- The grammar. -/
inductive Readable (M : Marks) (al : Char → Bool) : Goal → Str → Str → Prop
  /-- comments come before anything -/
  | notes {g s t r} : Notes s t → Readable M al g t r → Readable M al g s r
  | text {l us s r} : TextAt M l us s r → Readable M al (.part l (.lit (pyJoin c!" " us) none)) s r
  /-- in the path of a wildcard, plain text of the other kind, which may have parentheses -/
  | pathText {us s r} : TextAt M .inside us s r → Readable M al (.part .path (.lit (pyJoin c!" " us) none)) s r
  /-- `{~2$$ and $$a|2::b}` -/
  | choice {l m b os s s1 s2 s3 s4 s5 s6 s7 r} : Mark M.variantStart s s1 → Gap s1 s2 → MethodAt m s2 s3 →
      BoundsAt b s3 s4 → Gap s4 s5 → Readable M al (.options os) s5 s6 → Gap s6 s7 → Mark M.variantEnd s7 r →
      Readable M al (.part l (variantOf m b os)) s r
  /-- `__~path__` -/
  | wild {l m cs s s1 s2 s3 r} : l ≠ .path → Mark M.wildcardWrap s s1 → MethodAt m s1 s2 → cs ≠ [] →
      Readable M al (.parts .path cs) s2 s3 → Mark M.wildcardWrap s3 r →
      Readable M al (.part l (.wild (pathOf (together cs)) m [])) s r
  /-- `__~path(a=x,b=y)__`: parameters are separated by commas, values are templates; of parameters with the same
  name the last one counts (a Python `dict` is made of them) -/
  | wildP {l m cs w s s1 s2 s3 s4 s5 s6 s7 r} {ps : List RawParam} : l ≠ .path → Mark M.wildcardWrap s s1 →
      MethodAt m s1 s2 → cs ≠ [] → Readable M al (.parts .path cs) s2 s3 → Gap s3 s4 → Mark c!"(" s4 s5 → w ≠ [] →
      ')' ∉ w → Mark w s5 s6 → Mark c!")" s6 s7 → Mark M.wildcardWrap s7 r →
      w = pyJoin c!"," (ps.map (·.text)) → (∀ p ∈ ps, ',' ∉ p.text) → (∀ p ∈ ps, ParamAt p.text p.name p.value) →
      (∀ p ∈ ps, Readable M al (.template p.cmd) p.value []) →
      Readable M al (.part l (.wild (pathOf (together cs)) m (Dict.update [] (ps.map fun p => (p.name, p.cmd))))) s r
  /-- `${name}` -/
  | get {l n s s1 s2 s3 s4 r} : l ≠ .path → Mark M.variableStart s s1 → Gap s1 s2 → varName n = true → Mark n s2 s3 →
      Gap s3 s4 → Mark M.variableEnd s4 r → Readable M al (.part l (.access n none)) s r
  /-- `${name:default}` -/
  | getD {l n cs s s1 s2 s3 s4 s5 s6 s7 s8 r} : l ≠ .path → Mark M.variableStart s s1 → Gap s1 s2 → varName n = true →
      Mark n s2 s3 → Gap s3 s4 → Mark c!":" s4 s5 → Gap s5 s6 → Readable M al (.parts .inside cs) s6 s7 → Gap s7 s8 →
      Mark M.variableEnd s8 r → Readable M al (.part l (.access n (some (together cs)))) s r
  /-- `${name}` in the path of a wildcard -/
  | pathGet {n s s1 s2 s3 s4 r} : Mark M.variableStart s s1 → Gap s1 s2 → varName n = true → Mark n s2 s3 →
      Gap s3 s4 → Mark M.variableEnd s4 r → Readable M al (.part .path (.access n (some (.lit n none)))) s r
  /-- `${name:}` in the path of a wildcard -/
  | pathGetE {n s s1 s2 s3 s4 s5 s6 s7 s8 r} : Mark M.variableStart s s1 → Gap s1 s2 → varName n = true →
      Mark n s2 s3 → Gap s3 s4 → Mark c!":" s4 s5 → Gap s5 s6 → Readable M al (.parts .inside []) s6 s7 → Gap s7 s8 →
      Mark M.variableEnd s8 r → Readable M al (.part .path (.access n (some (.lit n none)))) s r
  /-- `${name:default}` in the path of a wildcard: the default is plain text -/
  | pathGetD {n d s s1 s2 s3 s4 s5 s6 s7 s8 r} : Mark M.variableStart s s1 → Gap s1 s2 → varName n = true →
      Mark n s2 s3 → Gap s3 s4 → Mark c!":" s4 s5 → Gap s5 s6 → Readable M al (.parts .inside [.lit d none]) s6 s7 →
      Gap s7 s8 → Mark M.variableEnd s8 r → Readable M al (.part .path (.access n (some (.lit (strip d) none)))) s r
  /-- `${name=value}`, `${name=!value}`, `${name?=value}`, `${name?=!value}`: only in the template itself -/
  | set {n k i cs s s1 s2 s3 s4 s5 s6 s7 s8 s9 s10 r} : Mark M.variableStart s s1 → Gap s1 s2 → varName n = true →
      Mark n s2 s3 → Gap s3 s4 → Mark (if k then c!"?" else []) s4 s5 → Mark c!"=" s5 s6 →
      Mark (if i then c!"!" else []) s6 s7 → Gap s7 s8 → Readable M al (.parts .inside cs) s8 s9 → Gap s9 s10 →
      Mark M.variableEnd s10 r → Readable M al (.part .top (.assign n (together cs) i (!k))) s r
  /-- `%{wrapper$$inner}` -/
  | wrap {l as bs s s1 s2 s3 s4 s5 s6 s7 r} : l ≠ .path → Mark M.wrapStart s s1 → Gap s1 s2 →
      Readable M al (.parts .inside as) s2 s3 → Gap s3 s4 → Mark c!"$$" s4 s5 → Gap s5 s6 →
      Readable M al (.parts .inside bs) s6 s7 → Mark M.wrapEnd s7 r →
      Readable M al (.part l (.wrap (together as) (together bs) none)) s r
  /-- several parts -/
  | nil {l s} : Readable M al (.parts l []) s s
  | cons {l c cs s t r} : Readable M al (.part l c) s t → Readable M al (.parts l cs) t r →
      Readable M al (.parts l (c :: cs)) s r
  /-- the options of a variant, separated by `|` -/
  | option {w cs s s1 s2 s3 r} : Gap s s1 → WeightAt w s1 s2 → Readable M al (.parts .inside cs) s2 s3 → Gap s3 r →
      Readable M al (.options [(together cs, w)]) s r
  | options {o os s t u r} : Readable M al (.options [o]) s t → Mark c!"|" t u → Readable M al (.options os) u r →
      Readable M al (.options (o :: os)) s r
  /-- letters and digits stand for themselves -/
  | word {s} : s ≠ [] → s.all (alphanumeric al) = true → Readable M al (.template (.lit s none)) s []
  /-- a template is a list of parts, followed by nothing but white space and comments -/
  | template {cs s t} : Readable M al (.parts .top cs) s t → Gap t [] → Readable M al (.template (together cs)) s []

end Verif.Spec
