import Verif.Spec.Language
import Mathlib.Logic.Relation
/-!
# Templates without a random part
-/

namespace Verif.Spec
open Verif
variable {W : Type}

/-- The text is one the name of a wildcard can turn out to be, for some values of the variables. -/
def Named (E : Env W) (path : Prompt) (wc : Str) : Prop := ∃ vars, LangPrompt E vars path wc

/-- The immediate parts of a command, including the commands its wildcards may expand to. -/
inductive Part (E : Env W) : Cmd → Cmd → Prop
  | token {toks sep m c} : c ∈ toks → Part E (.seq toks sep m) c
  | option {opts lo hi sep m p} : p ∈ opts → Part E (.variant opts lo hi sep m) p.1
  | path {c m v} : Part E (.wild (.inr c) m v) c
  | pathText {s m v c} : E.parse s = .ok c → Part E (.wild (.inl s) m v) c
  | param {path m v p} : p ∈ v → Part E (.wild path m v) p.2
  | value {path m v wc items i c} : Named E path wc → Values E wc items → i ∈ items →
      E.parse i.content = .ok c → Part E (.wild path m v) c
  | assigned {n v i o} : Part E (.assign n v i o) v
  | default {n d} : Part E (.access n (some d)) d
  | wrapper {w i m} : Part E (.wrap w i m) w
  | inner {w i m} : Part E (.wrap w i m) i

/-- No command reachable through parts (the command itself included) asks for the random method. -/
def RandomFree (E : Env W) (c : Cmd) : Prop :=
  ∀ c', Relation.ReflTransGen (Part E) c c' → c'.method ≠ some .random

/-- The whole setting asks for no random choice: the default method, the template, the variables of
the context and the value for unknown variables. -/
structure NoRandomness (E : Env W) (ctx : Ctx) (p : Prompt) : Prop where
  method : ctx.method ≠ .random
  template : ∀ c, p = .inr c → RandomFree E c
  text : ∀ s c, p = .inl s → E.parse s = .ok c → RandomFree E c
  vars : ∀ b ∈ ctx.vars, RandomFree E b.2
  unknown : ∀ u, E.unknown = some u → RandomFree E u

/-- The environment with another random source and another wildcard manager (possibly living in
another kind of world). -/
def swapWorld {W' : Type} (E : Env W) (rng : Rng W') (getValues : Str → M W' (List Item)) : Env W' :=
  { rng, parse := E.parse, ignoreWs := E.ignoreWs, unknown := E.unknown,
    toWildcard := E.toWildcard, getValues }

/-- Two outcomes are the same up to the world, and the worlds are related by `R`. -/
def SameOutcome {W' α : Type} (R : W → W' → Prop) : Res W α → Res W' α → Prop
  | .ok a w, .ok a' w' => a = a' ∧ R w w'
  | .err e w, .err e' w' => e = e' ∧ R w w'
  | .fuel, .fuel => True
  | _, _ => False

/-- Two iterations ended in the same way, and the worlds are related by `R`. -/
def SameStop {W' : Type} (R : W → W' → Prop) : Stop W → Stop W' → Prop
  | .limit g w, .limit g' w' => g = g' ∧ R w w'
  | .stop w, .stop w' => R w w'
  | .raised e w, .raised e' w' => e = e' ∧ R w w'
  | .fuel, .fuel => True
  | _, _ => False

/-- The world after an iteration, if it answered. -/
def worldAfter : Stop W → Option W
  | .limit _ w => some w
  | .stop w => some w
  | .raised _ w => some w
  | .fuel => none

end Verif.Spec
