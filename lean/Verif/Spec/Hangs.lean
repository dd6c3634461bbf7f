import Verif.Spec.Causes
/-!
# Causes of hangs

What in a template, its variables and its wildcards can make sampling run for ever.
-/

namespace Verif.Spec
open Verif
variable {W : Type}

/-- The involved commands, and the variants of values that stand for a variant of a single wildcard. -/
inductive Reached (E : Env W) (ctx : Ctx) (p : Prompt) : Cmd → Prop
  | involved {c} : Involved E ctx p c → Reached E ctx p c
  | expanded {path m v wt lo hi sep m' wc items cs} : Reached E ctx p (.variant [(.wild path m v, wt)] lo hi sep m') →
      Named E path wc → Values E wc items → ParsesAll E (iterateWeighted items) cs →
      Reached E ctx p (Cmd.mkVariant (cs.map (fun c => (c, 1))) (min lo items.length) (min hi items.length) sep m)

/-- An endless chain of involved commands, each needed to sample the one before, in which no variable is used twice. -/
structure Descent (E : Env W) (ctx : Ctx) (p : Prompt) (f : Nat → Cmd) : Prop where
  first : Involved E ctx p (f 0)
  next : ∀ i, Needs E ctx p (f i) (f (i + 1))
  once : ∀ i j n d d', i < j → f i = .access n d → f j ≠ .access n d'

/-- The commands in whose place a combinatorial sampler expects something that comes to an end: the template, what
variables and wildcards stand for, and the parts of a wrap. -/
inductive Loose (E : Env W) (ctx : Ctx) (p : Prompt) : Cmd → Prop
  | template {c} : p = .inr c → Loose E ctx p c
  | text {s c} : p = .inl s → E.parse s = .ok c → Loose E ctx p c
  | variable {n c} : Defines E ctx p n c → Loose E ctx p c
  | unknown {u} : E.unknown = some u → Loose E ctx p u
  | default {n c} : Involved E ctx p (.access n (some c)) → Loose E ctx p c
  | value {path m v wc items i c} : Involved E ctx p (.wild path m v) → Named E path wc → Values E wc items →
      i ∈ items → E.parse i.content = .ok c → Loose E ctx p c
  | wrapper {w i m} : Involved E ctx p (.wrap w i m) → Loose E ctx p w
  | inner {w i m} : Involved E ctx p (.wrap w i m) → Loose E ctx p i

/-- Something that can keep sampling from ever giving an answer, or a combinatorial iteration from ever coming to its end. -/
inductive Endless (E : Env W) (ctx : Ctx) (p : Prompt) : Prop
  /-- an endless chain of commands that need each other -/
  | descent {f} : Descent E ctx p f → Endless E ctx p
  /-- a cyclical variant of which no selection is permitted -/
  | selection {opts lo hi sep m} : Reached E ctx p (.variant opts lo hi sep m) → Asks E ctx p .cyc → opts ≠ [] →
      ¬ SingleWild opts → ¬ (0 ≤ max lo hi ∧ SomeSelection opts lo hi) → Endless E ctx p
  /-- the wildcard manager does not answer -/
  | manager {path m v wc w} : Involved E ctx p (.wild path m v) → Named E path wc → E.getValues wc w = .fuel →
      Endless E ctx p
  /-- a random wildcard with an empty value -/
  | content {path m v wc items i} : Involved E ctx p (.wild path m v) → Asks E ctx p .random → Named E path wc →
      Values E wc items → i ∈ items → i.content = [] → Endless E ctx p
  /-- a random wildcard, and something that has no text (left) where one is needed -/
  | dry {path m v} : Involved E ctx p (.wild path m v) → Asks E ctx p .random → Cause E ctx p .runtime →
      Endless E ctx p
  /-- a command that asks for the random or the cyclical method where the combinatorial sampler expects something that
  comes to an end -/
  | loose {c m} : ctx.method = .comb → Loose E ctx p c → c.method = some m → m ≠ .comb → Endless E ctx p
  /-- a combinatorial wildcard without values, which stands for its own name again and again -/
  | missing {path m v wc} : ctx.method = .comb → Involved E ctx p (.wild path m v) → Named E path wc →
      Values E wc [] → Endless E ctx p

/-! ## Texts -/

/-- No mark that begins or ends something contains a blank. -/
structure NoBlankMarks (cfg : ParserCfg) : Prop where
  variantStart : ' ' ∉ cfg.variantStart
  variantEnd : ' ' ∉ cfg.variantEnd
  variableStart : ' ' ∉ cfg.variableStart
  wrapStart : ' ' ∉ cfg.wrapStart
  wildcardWrap : ' ' ∉ cfg.wildcardWrap

/-- Everything is given as texts, which the library's parser reads. -/
structure AllText (E : Env W) (cfg : ParserCfg) (ctx : Ctx) (p : Prompt) : Prop where
  parser : E.parse = Verif.parse cfg
  text : ∃ s, p = .inl s
  vars : ∀ b ∈ ctx.vars, ∃ s, Verif.parse cfg s = .ok b.2
  unknown : ∀ u, E.unknown = some u → ∃ s, Verif.parse cfg s = .ok u

/-- The texts that are values of wildcards. -/
def library (E : Env W) : Set Str := {s | ∃ wc items i, Values E wc items ∧ i ∈ items ∧ i.content = s}

/-- Sampling some wildcard may need the wildcard itself. -/
def CircularWildcard (E : Env W) (ctx : Ctx) (p : Prompt) : Prop :=
  ∃ path m v, Involved E ctx p (.wild path m v) ∧
    Relation.TransGen (Needs E ctx p) (.wild path m v) (.wild path m v)

/-- The causes that remain if everything is given as texts, with finitely many values. -/
inductive TextEndless (E : Env W) (ctx : Ctx) (p : Prompt) : Prop
  /-- a wildcard that may need itself -/
  | circular : CircularWildcard E ctx p → TextEndless E ctx p
  /-- a cyclical variant of which no selection is permitted -/
  | selection {opts lo hi sep m} : Reached E ctx p (.variant opts lo hi sep m) → Asks E ctx p .cyc →
      ¬ SingleWild opts → ¬ (0 ≤ max lo hi ∧ SomeSelection opts lo hi) → TextEndless E ctx p
  /-- the wildcard manager does not answer -/
  | manager {path m v wc w} : Involved E ctx p (.wild path m v) → Named E path wc → E.getValues wc w = .fuel →
      TextEndless E ctx p
  /-- a random wildcard with an empty value -/
  | content {path m v wc items i} : Involved E ctx p (.wild path m v) → Asks E ctx p .random → Named E path wc →
      Values E wc items → i ∈ items → i.content = [] → TextEndless E ctx p
  /-- a random wildcard, and something that has no text (left) where one is needed -/
  | dry {path m v} : Involved E ctx p (.wild path m v) → Asks E ctx p .random → Cause E ctx p .runtime →
      TextEndless E ctx p
  /-- a command with a symbol for the random or cyclical method in a combinatorial template -/
  | loose {c m} : ctx.method = .comb → Loose E ctx p c → c.method = some m → m ≠ .comb → TextEndless E ctx p
  /-- a wildcard without values in a combinatorial template -/
  | missing {path m v wc} : ctx.method = .comb → Involved E ctx p (.wild path m v) → Named E path wc →
      Values E wc [] → TextEndless E ctx p

end Verif.Spec
