import Verif.Spec.Chances
import Verif.Spec.Lists
/-!
# A wildcard, and the variant in which its values are written out
-/

namespace Verif.Spec
open Verif
variable {W : Type}

/-- The options are what the values say, with the weights of the values. -/
inductive WrittenOut (E : Env W) : List Item → List (Cmd × Rat) → Prop
  | nil : WrittenOut E [] []
  | cons {i is c opts} : i.content ≠ [] → E.parse i.content = .ok c → WrittenOut E is opts →
      WrittenOut E (i :: is) ((c, i.weight.getD 1) :: opts)

/-- The wildcard called `name` has the values `items`, at least two; `opts` are these values, written out. -/
structure SpeltOut (E : Env W) (name : Str) (items : List Item) (opts : List (Cmd × Rat)) : Prop where
  plain : E.parse name = .ok (.lit name none)
  named : name ≠ []
  values : ∀ w, ∃ w', E.getValues name w = .ok items w'
  options : WrittenOut E items opts
  several : 2 ≤ items.length

/-- Two lists of parts, the second with some wildcards written out as choices of one of their values (and the same mark for
the sampling method).  `ok` restricts the values. -/
inductive SpeltTokens (E : Env W) (ok : List Item → List (Cmd × Rat) → Prop) : List Cmd → List Cmd → Prop
  | nil : SpeltTokens E ok [] []
  | same {c cs cs'} : SpeltTokens E ok cs cs' → SpeltTokens E ok (c :: cs) (c :: cs')
  | spell {name items opts sep m cs cs'} : SpeltOut E name items opts → ok items opts → SpeltTokens E ok cs cs' →
      SpeltTokens E ok (.wild (.inl name) m [] :: cs) (.variant opts 1 1 sep m :: cs')

/-- The same for commands: a part, or a sequence of parts. -/
inductive SpeltCmd (E : Env W) (ok : List Item → List (Cmd × Rat) → Prop) : Cmd → Cmd → Prop
  | part {c c'} : SpeltTokens E ok [c] [c'] → SpeltCmd E ok c c'
  | seq {toks toks' sep m} : SpeltTokens E ok toks toks' → SpeltCmd E ok (.seq toks sep m) (.seq toks' sep m)

/-- Two templates, the second with some wildcards written out. -/
inductive SpeltPrompt (E : Env W) (ok : List Item → List (Cmd × Rat) → Prop) : Prompt → Prompt → Prop
  | cmd {c c'} : SpeltCmd E ok c c' → SpeltPrompt E ok (.inr c) (.inr c')
  | text {t t' c c'} : t ≠ [] → t' ≠ [] → E.parse t = .ok c → E.parse t' = .ok c' → SpeltCmd E ok c c' →
      SpeltPrompt E ok (.inl t) (.inl t')

/-- All values have weight one. -/
def UnitWeights (items : List Item) (_ : List (Cmd × Rat)) : Prop := ∀ i ∈ items, i.weight.getD 1 = 1

/-- Each value has a text. -/
def NoneDry (E : Env W) (_ : List Item) (opts : List (Cmd × Rat)) : Prop := ∀ vars, ∀ p ∈ opts, ¬ Dry E vars p.1

/-- All values have weight one, and no two texts of the values are the same. -/
def DistinctTexts (E : Env W) (items : List Item) (opts : List (Cmd × Rat)) : Prop :=
  UnitWeights items opts ∧ ∀ vars being (f : Cmd → List Str), (∀ p ∈ opts, Lists E vars being p.1 (f p.1)) →
    (opts.flatMap fun p => f p.1).Nodup

end Verif.Spec
