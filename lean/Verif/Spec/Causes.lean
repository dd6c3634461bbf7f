import Verif.Spec.RandomFree
import Verif.Spec.Productive
import Verif.Spec.Parsed
import Verif.Model.Parser
/-!
# Causes of exceptions

What in a template, its variables and its wildcards can make sampling raise a given exception.
-/

namespace Verif.Spec
open Verif
variable {W : Type}

/-- The commands that are involved when the prompt `p` is sampled: the template, the variables of the context, the value for
unknown variables, and all their parts, including the commands wildcards may expand to. -/
inductive Involved (E : Env W) (ctx : Ctx) (p : Prompt) : Cmd → Prop
  | template {c} : p = .inr c → Involved E ctx p c
  | text {s c} : p = .inl s → E.parse s = .ok c → Involved E ctx p c
  | var {b} : b ∈ ctx.vars → Involved E ctx p b.2
  | unknown {u} : E.unknown = some u → Involved E ctx p u
  | part {c c'} : Involved E ctx p c → Part E c c' → Involved E ctx p c'

/-- Definitions of variables: in the context, by an assignment, as a parameter of a wildcard. -/
inductive Defines (E : Env W) (ctx : Ctx) (p : Prompt) : Str → Cmd → Prop
  | var {b} : b ∈ ctx.vars → Defines E ctx p b.1 b.2
  | assign {n v i o} : Involved E ctx p (.assign n v i o) → Defines E ctx p n v
  | param {path m v b} : Involved E ctx p (.wild path m v) → b ∈ v → Defines E ctx p b.1 b.2

/-- What sampling a command may need to sample: its parts, and the definitions of a variable. -/
inductive Needs (E : Env W) (ctx : Ctx) (p : Prompt) : Cmd → Cmd → Prop
  | part {c c'} : Part E c c' → Needs E ctx p c c'
  | variable {n d c} : Defines E ctx p n c → Needs E ctx p (.access n d) c
  | unknown {n d u} : E.unknown = some u → Needs E ctx p (.access n d) u

/-- A command counts as empty: no tokens, or no options. -/
def Hollow (c : Cmd) : Prop := c.truthy = false

/-- The commands that occur elsewhere than as a token of a sequence. -/
inductive Stray (E : Env W) (ctx : Ctx) (p : Prompt) : Cmd → Prop
  | template {c} : p = .inr c → Stray E ctx p c
  | text {s c} : p = .inl s → E.parse s = .ok c → Stray E ctx p c
  | var {b} : b ∈ ctx.vars → Stray E ctx p b.2
  | unknown {u} : E.unknown = some u → Stray E ctx p u
  | part {c c'} : Involved E ctx p c → Part E c c' → (∀ toks sep m, c ≠ .seq toks sep m) → Stray E ctx p c'

/-- The sampling method is the default one, or some command asks for it. -/
def Asks (E : Env W) (ctx : Ctx) (p : Prompt) (m : Method) : Prop :=
  ctx.method = m ∨ ∃ c, Involved E ctx p c ∧ c.method = some m

/-- The values do not all have the same weight. -/
def VariedWeights (items : List Item) : Prop :=
  ∃ i ∈ items, ∃ j ∈ items, i.weight.getD 1 ≠ j.weight.getD 1

/-- The wildcard is the only option of a variant, or a value of such a wildcard. -/
inductive Lone (E : Env W) (ctx : Ctx) (p : Prompt) : Prompt → Option Method → List (Str × Cmd) → Prop
  | variant {path m v wt lo hi sep m'} : Involved E ctx p (.variant [(.wild path m v, wt)] lo hi sep m') →
      Lone E ctx p path m v
  | value {path m v wc items i path' m' v'} : Lone E ctx p path m v → Named E path wc → Values E wc items →
      i ∈ items → E.parse i.content = .ok (.wild path' m' v') → Lone E ctx p path' m' v'

/-- Something from which no text at all can be drawn, or no further text where one is needed. -/
inductive Barren (E : Env W) (ctx : Ctx) (p : Prompt) : Prop
  /-- a variant without options -/
  | options {lo hi sep m} : Involved E ctx p (.variant [] lo hi sep m) → Barren E ctx p
  /-- a wildcard as only option of a variant, all of whose values (if any) have a weight below 1 -/
  | expansion {path m v wc items} : Lone E ctx p path m v → Named E path wc → Values E wc items →
      (∀ i ∈ items, i.weight.getD 1 < 1) → Barren E ctx p
  /-- a cyclical or combinatorial wildcard all of whose values have a weight below 1 -/
  | listed {path m v wc items} : Involved E ctx p (.wild path m v) → Asks E ctx p .cyc ∨ Asks E ctx p .comb →
      Named E path wc → Values E wc items → items ≠ [] → (∀ i ∈ items, i.weight.getD 1 < 1) → Barren E ctx p
  /-- a cyclical or combinatorial wildcard one of whose values is empty -/
  | content {path m v wc items i} : Involved E ctx p (.wild path m v) → Asks E ctx p .cyc ∨ Asks E ctx p .comb →
      Named E path wc → Values E wc items → i ∈ items → i.content = [] → Barren E ctx p
  /-- a wildcard without a name -/
  | nameless {m v} : Involved E ctx p (.wild (.inl []) m v) → Barren E ctx p
  /-- a wildcard whose name is empty -/
  | emptyName {c m v} : Involved E ctx p (.wild (.inr c) m v) → Hollow c → Barren E ctx p
  /-- a combinatorial variant of which at least two different options are to be combined -/
  | several {opts lo hi sep m} : Involved E ctx p (.variant opts lo hi sep m) → Asks E ctx p .comb →
      2 ≤ opts.length ∨ SingleWild opts → 2 ≤ min lo hi → Barren E ctx p
  /-- a combinatorial variant of which fewer than no options are to be combined -/
  | negative {opts lo hi sep m} : Involved E ctx p (.variant opts lo hi sep m) → Asks E ctx p .comb →
      max lo hi < 0 → Barren E ctx p
  /-- a combinatorial wrap with an empty part -/
  | wrap {w i m} : Involved E ctx p (.wrap w i m) → Asks E ctx p .comb → Hollow w ∨ Hollow i → Barren E ctx p

/-- The exceptions sampling may raise, each with a cause. -/
inductive Cause (E : Env W) (ctx : Ctx) (p : Prompt) : Err → Prop
  /-- the template cannot be parsed -/
  | template {s e} : p = .inl s → E.parse s = .error e → Cause E ctx p e
  /-- the name of a wildcard cannot be parsed -/
  | name {s m v e} : Involved E ctx p (.wild (.inl s) m v) → E.parse s = .error e → Cause E ctx p e
  /-- a value of a wildcard cannot be parsed -/
  | value {path m v wc items i e} : Involved E ctx p (.wild path m v) → Named E path wc → Values E wc items →
      i ∈ items → E.parse i.content = .error e → Cause E ctx p e
  /-- the wildcard manager raises the exception -/
  | manager {path m v wc w w' e} : Involved E ctx p (.wild path m v) → Named E path wc →
      E.getValues wc w = .err e w' → Cause E ctx p e
  /-- a variable is used that the context does not define, without a default or with an empty one, and there is no
  value for unknown variables -/
  | undefined {n d} : Involved E ctx p (.access n d) → E.unknown = none → (∀ b ∈ ctx.vars, b.1 ≠ n) →
      (∀ x, d = some x → Hollow x) → Cause E ctx p (.key n)
  /-- a variable is used that has an empty definition, and there is no value for unknown variables -/
  | emptyDefinition {n d c} : Involved E ctx p (.access n d) → E.unknown = none → Defines E ctx p n c → Hollow c →
      Cause E ctx p (.key n)
  /-- sampling the variable may need the variable itself -/
  | recursion {n d d'} : Involved E ctx p (.access n d) →
      Relation.TransGen (Needs E ctx p) (.access n d) (.access n d') → Cause E ctx p (.recursion n)
  /-- an assignment that is not a token of a sequence -/
  | assignment {n v i o} : Stray E ctx p (.assign n v i o) → Cause E ctx p .notImplemented
  /-- a wrap, which the cyclical sampler does not support -/
  | wrap {w i m} : Involved E ctx p (.wrap w i m) → Asks E ctx p .cyc → Cause E ctx p .notImplemented
  /-- a random variant from which not enough options of positive weight can be drawn -/
  | weights {opts lo hi sep m} : Involved E ctx p (.variant opts lo hi sep m) → Asks E ctx p .random →
      2 ≤ opts.length →
      ¬ (0 ≤ max lo hi ∧ DrawableWeights (opts.map (·.2)) (max 0 (min (max lo hi) opts.length))) →
      Cause E ctx p .value
  /-- a random wildcard from whose values none can be drawn -/
  | values {path m v wc items} : Involved E ctx p (.wild path m v) → Asks E ctx p .random → Named E path wc →
      Values E wc items → VariedWeights items → ¬ DrawableItems items → Cause E ctx p .value
  /-- a part has no text (left) where one is needed -/
  | barren : Barren E ctx p → Cause E ctx p .runtime

/-- A template that is nothing but an assignment. -/
inductive BareAssignment (E : Env W) (ctx : Ctx) (p : Prompt) : Prop
  | template {s n v i o} : p = .inl s → E.parse s = .ok (.assign n v i o) → BareAssignment E ctx p
  | name {s m v n v' i o} : Involved E ctx p (.wild (.inl s) m v) → E.parse s = .ok (.assign n v' i o) →
      BareAssignment E ctx p
  | value {path m v wc items x n v' i o} : Involved E ctx p (.wild path m v) → Named E path wc → Values E wc items →
      x ∈ items → E.parse x.content = .ok (.assign n v' i o) → BareAssignment E ctx p
  | param {path m v b n v' i o} : Involved E ctx p (.wild path m v) → b ∈ v → b.2 = .assign n v' i o →
      BareAssignment E ctx p
  | var {b n v i o} : b ∈ ctx.vars → b.2 = .assign n v i o → BareAssignment E ctx p
  | unknown {n v i o} : E.unknown = some (.assign n v i o) → BareAssignment E ctx p

/-- The template is a text, the parser is the library's, and the variables of the context and the value for unknown
variables are commands such as the parser gives. -/
structure FromText (E : Env W) (cfg : ParserCfg) (ctx : Ctx) (p : Prompt) : Prop where
  parser : E.parse = Verif.parse cfg
  text : ∃ s, p = .inl s
  vars : ∀ b ∈ ctx.vars, Shaped true b.2
  unknown : ∀ u, E.unknown = some u → Shaped true u

end Verif.Spec
