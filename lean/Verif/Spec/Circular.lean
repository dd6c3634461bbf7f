import Verif.Spec.Language
/-!
# Wildcards that need each other

`Requires E S c`: no text of the command `c` can be made without a text of a wildcard whose name is in `S`.
`Circular E S`: no value of a wildcard of `S` can be made without one either.
-/

namespace Verif.Spec
open Verif
variable {W : Type}

/-- The command cannot do without a wildcard of `S`. -/
inductive Requires (E : Env W) (S : Str → Prop) : Cmd → Prop
  /-- a wildcard whose name is in `S`, whatever its path gives -/
  | wild {path m v} : (∀ vars wc, LangPrompt E vars path wc → S wc) → Requires E S (.wild path m v)
  /-- a sequence with such a part -/
  | seq {toks sep m t} : t ∈ toks → Requires E S t → Requires E S (.seq toks sep m)
  /-- a sequence that samples such a value at once -/
  | now {toks sep m n v} : .assign n v true true ∈ toks → Requires E S v → Requires E S (.seq toks sep m)
  /-- a choice of at least one, all of whose options are such -/
  | variant {opts lo hi sep m} : ¬ SingleWild opts → ¬ InBounds opts.length lo hi 0 → (∀ o ∈ opts, Requires E S o.1) →
      Requires E S (.variant opts lo hi sep m)
  /-- a choice of at least one among the values of such a wildcard, none of which is empty -/
  | values {path m' v wt lo hi sep m} : 1 ≤ lo → 1 ≤ hi → (∀ vars wc, LangPrompt E vars path wc → S wc) →
      (∀ wc items i, S wc → Values E wc items → i ∈ items → i.content ≠ []) →
      Requires E S (.variant [(.wild path m' v, wt)] lo hi sep m)
  /-- a wrap of such a part -/
  | wrapped {wr i m} : (∀ vars, ¬ Dry E vars wr) → Requires E S i → Requires E S (.wrap wr i m)
  /-- a wrap with such a part -/
  | wrapper {wr i m} : Requires E S wr → (∀ vars, ¬ Dry E vars i) → Requires E S (.wrap wr i m)

/-- Each of the wildcards has values, and each value is empty or cannot do without one of the wildcards. -/
def Circular (E : Env W) (S : Str → Prop) : Prop :=
  ∀ n, S n → ∀ items, Values E n items → iterateWeighted items ≠ [] ∧
    ∀ i ∈ items, i.content = [] ∨ ∃ c, E.parse i.content = .ok c ∧ Requires E S c

/-- The same for a template, given as a text or as a command. -/
inductive RequiresPrompt (E : Env W) (S : Str → Prop) : Prompt → Prop
  | text {t c} : E.parse t = .ok c → Requires E S c → RequiresPrompt E S (.inl t)
  | cmd {c} : Requires E S c → RequiresPrompt E S (.inr c)

end Verif.Spec
