import Verif.Spec.Language
/-!
# Variable resolution and nesting of sampling methods, as a specification
-/

namespace Verif.Spec
open Verif

/-- The sampling method a command uses: its own one if it has one, except that a combinatorial
command in a random or cyclical context uses the context's method. -/
def nest (context : Method) (own : Option Method) : Method :=
  match own with
  | none => context
  | some m => if m = .comb ∧ context ≠ .comb then context else m

/-- The same command without a method of its own. -/
def unmark : Cmd → Cmd
  | .lit s _ => .lit s none
  | .seq toks sep _ => .seq toks sep none
  | .variant opts lo hi sep _ => .variant opts lo hi sep none
  | .wild path _ vars => .wild path none vars
  | .wrap wrapper inner _ => .wrap wrapper inner none
  | c => c

/-- A variable access without a usable value: neither the context nor the default provides a
non-empty command, and no value for unknown variables is configured. -/
def Undefined (unknown : Option Cmd) (vars : List (Str × Cmd)) (name : Str) (default : Option Cmd) :
    Prop :=
  unknown = none ∧
    match vars.lookup name with
    | some c => c.truthy = false
    | none => ∀ d, default = some d → d.truthy = false

/-- What following a chain of variable definitions leads to. -/
inductive Outcome where
  /-- a command that is not a variable access; `being` are the variables passed on the way -/
  | target (being : List Str) (c : Cmd)
  /-- a variable that is already being resolved -/
  | recursion (name : Str)
  /-- a variable without value -/
  | undefined (name : Str)

/-- Following the definitions from command `c`, while the variables `being` are being resolved. -/
inductive Chain (unknown : Option Cmd) (vars : List (Str × Cmd)) : List Str → Cmd → Outcome → Prop
  | target {being c} : (∀ n d, c ≠ .access n d) → Chain unknown vars being c (.target being c)
  | undefined {being name d} : Undefined unknown vars name d →
      Chain unknown vars being (.access name d) (.undefined name)
  | loop {being name d c} : Resolves unknown vars name d c → name ∈ being →
      Chain unknown vars being (.access name d) (.recursion name)
  | step {being name d c o} : Resolves unknown vars name d c → name ∉ being →
      Chain unknown vars (name :: being) c o → Chain unknown vars being (.access name d) o

end Verif.Spec
