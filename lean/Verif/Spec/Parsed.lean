import Verif.Spec.Syntax
/-!
# The shape of parsed templates

What a command may look like that comes from a template's text, whatever the text.
-/

namespace Verif.Spec

/-- A command that is a sequence. -/
def isSequence : Cmd → Bool
  | .seq .. => true
  | _ => false

/-- A command that is a literal. -/
def isLiteral : Cmd → Bool
  | .lit .. => true
  | _ => false

mutual
/-- A command that stands for a template or a part of one. If `top`, assignments are allowed. -/
inductive Shaped : Bool → Cmd → Prop
  /-- Literals are not empty, and have no sampling method of their own. -/
  | lit {top : Bool} {s : Str} : s ≠ [] → Shaped top (.lit s none)
  /-- A sequence has no separator, does not have exactly one part, and none of its parts is a
  sequence. -/
  | seq {top : Bool} {cs : List Cmd} : cs.length ≠ 1 → (∀ c ∈ cs, Shaped top c) →
      (∀ c ∈ cs, isSequence c = false) → Shaped top (.seq cs [] none)
  /-- A variant has at least one option, its bounds are in order, and its separator is writable. -/
  | variant {top : Bool} {opts : List (Cmd × Rat)} {lo hi : Int} {sep : Str} {m : Option Method} :
      opts ≠ [] → (∀ o ∈ opts, Shaped false o.1) → 0 ≤ lo → lo ≤ hi → separator sep = true →
      Shaped top (.variant opts lo hi sep m)
  /-- A wildcard's parameters are templates of their own, and have different names. -/
  | named {top : Bool} {name : Str} {m : Option Method} {params : List (Str × Cmd)} :
      name ≠ [] → (∀ p ∈ params, Shaped true p.2) → (params.map Prod.fst).Nodup →
      Shaped top (.wild (.inl name) m params)
  /-- The same for a wildcard with variable parts in its path. -/
  | path {top : Bool} {c : Cmd} {m : Option Method} {params : List (Str × Cmd)} :
      ShapedPath c → isLiteral c = false → (∀ p ∈ params, Shaped true p.2) →
      (params.map Prod.fst).Nodup →
      Shaped top (.wild (.inr c) m params)
  | access {top : Bool} {n : Str} : varName n = true → Shaped top (.access n none)
  | accessD {top : Bool} {n : Str} {d : Cmd} : varName n = true → Shaped false d →
      Shaped top (.access n (some d))
  /-- Assignments stand only at the top, and their values contain none. -/
  | assign {n : Str} {v : Cmd} {i o : Bool} : varName n = true → Shaped false v →
      Shaped true (.assign n v i o)
  | wrap {top : Bool} {a b : Cmd} : Shaped false a → Shaped false b → Shaped top (.wrap a b none)
/-- A command that stands for a path. -/
inductive ShapedPath : Cmd → Prop
  | part {c : Cmd} : ShapedPathPart c → ShapedPath c
  | seq {cs : List Cmd} : 2 ≤ cs.length → (∀ c ∈ cs, ShapedPathPart c) → ShapedPath (.seq cs [] none)
/-- A part of a path: text, a variant, or a variable, which always has a text as its default. -/
inductive ShapedPathPart : Cmd → Prop
  | lit {s : Str} : s ≠ [] → ShapedPathPart (.lit s none)
  | variant {opts : List (Cmd × Rat)} {lo hi : Int} {sep : Str} {m : Option Method} :
      Shaped false (.variant opts lo hi sep m) → ShapedPathPart (.variant opts lo hi sep m)
  | access {n : Str} {s : Str} : varName n = true → ShapedPathPart (.access n (some (.lit s none)))
end

end Verif.Spec
