import Verif.Model.Engine
import Batteries.Data.List.Perm
/-!
# The language of a template

`Lang E vars c s` says that the text `s` can be derived from the command `c` when the variables
are `vars` (first binding of a name wins).  It is a grammar: it knows nothing about samplers,
generators, random numbers, or order of generation.  From the environment it uses the parser, the
possible answers of the wildcard manager, the wrapping of wildcard names and the two settings
(ignore whitespace, value of unknown variables).
-/

namespace Verif.Spec
open Verif

variable {W : Type}

/-- `items` is a possible answer of the wildcard manager for the wildcard `wc`. -/
def Values (E : Env W) (wc : Str) (items : List Item) : Prop :=
  ∃ w w', E.getValues wc w = .ok items w'

/-- A permitted number of options: bounds may be given in either order, negative ones count
as zero, and both are cut off at the number `n` of options. -/
def InBounds (n : Nat) (lo hi : Int) (k : Nat) : Prop :=
  max 0 (min (min lo hi) n) ≤ (k : Int) ∧ (k : Int) ≤ max 0 (min (max lo hi) n)

/-- The variant consists of a single wildcard. -/
def SingleWild (opts : List (Cmd × Rat)) : Prop := ∃ p m v w, opts = [(Cmd.wild p m v, w)]

/-- The command a variable access stands for: its value in the context, else its default, else (or
if that command is an empty sequence or an empty variant) the value for unknown variables. -/
inductive Resolves (unknown : Option Cmd) (vars : List (Str × Cmd)) : Str → Option Cmd → Cmd → Prop
  | var {name d c} : vars.lookup name = some c → c.truthy = true → Resolves unknown vars name d c
  | default {name c} : vars.lookup name = none → c.truthy = true →
      Resolves unknown vars name (some c) c
  | unknownEmpty {name d c u} : vars.lookup name = some c → c.truthy = false → unknown = some u →
      Resolves unknown vars name d u
  | unknownEmptyDefault {name d u} : vars.lookup name = none → d.truthy = false → unknown = some u →
      Resolves unknown vars name (some d) u
  | unknown {name u} : vars.lookup name = none → unknown = some u → Resolves unknown vars name none u

/-- The parser accepts every value. -/
inductive ParsesAll (E : Env W) : List Str → List Cmd → Prop
  | nil : ParsesAll E [] []
  | cons {v vs c cs} : E.parse v = .ok c → ParsesAll E vs cs → ParsesAll E (v :: vs) (c :: cs)

/-- A text as it is, or with squashed whitespace if so configured. -/
inductive Squashed (E : Env W) : Str → Str → Prop
  | same {s} : Squashed E s s
  | squash {s} : E.ignoreWs = true → Squashed E s (squashWhitespace s)

mutual
/-- `s` is a text of command `c` under `vars`. -/
inductive Lang (E : Env W) : List (Str × Cmd) → Cmd → Str → Prop
  | lit {vars s m} : Lang E vars (.lit s m) s
  /-- the texts of the tokens, in order, joined with the separator -/
  | seq {vars toks sep m toks' new strs} : Assigned E vars toks toks' new →
      LangAll E (new ++ vars) toks' strs → Lang E vars (.seq toks sep m) (joined sep strs)
  /-- the same with an empty text at both ends (this only matters if the separator is non-empty) -/
  | seqPad {vars toks sep m toks' new strs} : Assigned E vars toks toks' new →
      LangAll E (new ++ vars) toks' strs →
      Lang E vars (.seq toks sep m) (joined sep ([] :: strs ++ [[]]))
  /-- a permitted number of the options, chosen without replacement, in any order, joined with the
  separator -/
  | variant {vars opts lo hi sep m cs strs} : ¬ SingleWild opts → opts ≠ [] →
      cs.Subperm (opts.map (·.1)) → InBounds opts.length lo hi cs.length → LangAll E vars cs strs →
      Lang E vars (.variant opts lo hi sep m) (joined sep strs)
  /-- a single option stands for itself -/
  | variantSingle {vars c wt lo hi sep m s} : ¬ SingleWild [(c, wt)] → Lang E vars c s →
      Lang E vars (.variant [(c, wt)] lo hi sep m) s
  /-- if a chosen option has no text, only the options before it are joined -/
  | variantDry {vars opts lo hi sep m pre d post strs} : ¬ SingleWild opts → opts ≠ [] →
      (pre ++ d :: post).Subperm (opts.map (·.1)) →
      InBounds opts.length lo hi (pre ++ d :: post).length →
      LangAll E vars pre strs → Dry E vars d →
      Lang E vars (.variant opts lo hi sep m) (joined sep strs)
  /-- a variant consisting of a single wildcard is the variant of the wildcard's values -/
  | variantWild {vars path m' v wt lo hi sep m wc items cs s} : LangPrompt E vars path wc →
      Values E wc items → ParsesAll E (iterateWeighted items) cs →
      Lang E vars (Cmd.mkVariant (cs.map (fun c => (c, 1))) (min lo items.length)
        (min hi items.length) sep m') s →
      Lang E vars (.variant [(.wild path m' v, wt)] lo hi sep m) s
  /-- a wildcard: a text of one of its values, with the wildcard's own variables -/
  | wild {vars path m v wc items item s} : LangPrompt E vars path wc → Values E wc items →
      item ∈ items → LangPrompt E (v ++ vars) (.inl item.content) s → Lang E vars (.wild path m v) s
  /-- a wildcard without values: its wrapped name -/
  | wildMissing {vars p m v wc} : LangPrompt E vars (.inl p) wc → Values E wc [] →
      Lang E vars (.wild (.inl p) m v) (E.toWildcard p)
  | wildMissingCmd {vars c m v wc wc'} : LangPrompt E vars (.inr c) wc → Values E wc [] →
      LangPrompt E (v ++ vars) (.inr c) wc' → Lang E vars (.wild (.inr c) m v) (E.toWildcard wc')
  | access {vars name d c s} : Resolves E.unknown vars name d c → Lang E vars c s →
      Lang E vars (.access name d) s
  | wrap {vars wr i m w s w' s'} : Lang E vars wr w → Lang E vars i s → Squashed E w w' →
      Squashed E s s' → Lang E vars (.wrap wr i m) (wrapWith w' s')
/-- Texts of a list of commands, one each. -/
inductive LangAll (E : Env W) : List (Str × Cmd) → List Cmd → List Str → Prop
  | nil {vars} : LangAll E vars [] []
  | cons {vars c cs s strs} : Lang E vars c s → LangAll E vars cs strs →
      LangAll E vars (c :: cs) (s :: strs)
/-- Texts of a prompt (text or command), with whitespace squashed if so configured. -/
inductive LangPrompt (E : Env W) : List (Str × Cmd) → Prompt → Str → Prop
  | text {vars p c s} : p ≠ [] → E.parse p = .ok c → Lang E vars c s →
      LangPrompt E vars (.inl p) (if E.ignoreWs then squashWhitespace s else s)
  | cmd {vars c s} : c.truthy = true → Lang E vars c s →
      LangPrompt E vars (.inr c) (if E.ignoreWs then squashWhitespace s else s)
/-- `Assigned vars toks toks' new`: the tokens of a sequence are its non-assignments `toks'`, and
its assignments bind `new` (last assignment first), all evaluated under `vars`. -/
inductive Assigned (E : Env W) : List (Str × Cmd) → List Cmd → List Cmd → List (Str × Cmd) → Prop
  | nil {vars} : Assigned E vars [] [] []
  | tok {vars c cs toks new} : (∀ n v i o, c ≠ .assign n v i o) → Assigned E vars cs toks new →
      Assigned E vars (c :: cs) (c :: toks) new
  | set {vars n v i o cs toks new c} : AssignedValue E vars n v i o c → Assigned E vars cs toks new →
      Assigned E vars (.assign n v i o :: cs) toks (new ++ [(n, c)])
/-- The command an assignment binds. -/
inductive AssignedValue (E : Env W) : List (Str × Cmd) → Str → Cmd → Bool → Bool → Cmd → Prop
  /-- `?=` keeps an existing value -/
  | keep {vars n v i c} : vars.lookup n = some c → AssignedValue E vars n v i false c
  /-- a plain assignment binds the command itself -/
  | plain {vars n v o} : (o = true ∨ vars.lookup n = none) → AssignedValue E vars n v false o v
  /-- an immediate assignment binds one text of the command -/
  | literal {vars n s m o} : (o = true ∨ vars.lookup n = none) →
      AssignedValue E vars n (.lit s m) true o (.lit s m)
  | immediate {vars n v o s} : (o = true ∨ vars.lookup n = none) → Lang E vars v s →
      AssignedValue E vars n v true o (.lit s none)
/-- Commands that may turn out to have no text at all. -/
inductive Dry (E : Env W) : List (Str × Cmd) → Cmd → Prop
  | empty {vars lo hi sep m} : Dry E vars (.variant [] lo hi sep m)
  | single {vars c wt lo hi sep m} : ¬ SingleWild [(c, wt)] → Dry E vars c →
      Dry E vars (.variant [(c, wt)] lo hi sep m)
  | wild {vars path m' v wt lo hi sep m wc items cs} : LangPrompt E vars path wc →
      Values E wc items → ParsesAll E (iterateWeighted items) cs →
      Dry E vars (Cmd.mkVariant (cs.map (fun c => (c, 1))) (min lo items.length)
        (min hi items.length) sep m') →
      Dry E vars (.variant [(.wild path m' v, wt)] lo hi sep m)
  | values {vars path m v wc items} : LangPrompt E vars path wc → Values E wc items →
      iterateWeighted items = [] → Dry E vars (.wild path m v)
  | access {vars name d c} : Resolves E.unknown vars name d c → Dry E vars c →
      Dry E vars (.access name d)
  | wrapper {vars wr i m} : Dry E vars wr → Dry E vars (.wrap wr i m)
  | inner {vars wr i m} : Dry E vars i → Dry E vars (.wrap wr i m)
end

end Verif.Spec
