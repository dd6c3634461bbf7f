import Verif.Model.Engine
/-!
# Editing the plain text of a template
-/

namespace Verif.Spec
open Verif
variable {W : Type}

/-- The tokens of two sequences are the same, up to the texts of the literals that have no sampling method of their own. -/
inductive Edited : List Cmd → List Cmd → Prop
  | nil : Edited [] []
  | same {c ts ts'} : Edited ts ts' → Edited (c :: ts) (c :: ts')
  | text {a b ts ts'} : Edited ts ts' → Edited (.lit a none :: ts) (.lit b none :: ts')

/-- Neither a literal (other than one with a random or cyclical method of its own, which no template has) nor an
assignment. -/
def Solid (c : Cmd) : Prop :=
  (∀ a, c ≠ .lit a none) ∧ (∀ a, c ≠ .lit a (some .comb)) ∧ ∀ n v i o, c ≠ .assign n v i o

/-- Literals that correspond to each other: only those without a method of their own may differ. -/
def OwnText (m : Option Method) (a b : Str) : Prop := m = none ∨ (m = some .comb ∧ a = b)

/-- The texts of the tokens of the two sequences in a prompt of each: a token that was not edited has the same text in both
(an assignment has none, and a part whose own method is random or cyclical may have none left in a combinatorial sequence);
a literal has its own text in each. -/
inductive Filled : List Cmd → List Cmd → List Str → List Str → Prop
  | nil : Filled [] [] [] []
  | same {c x ts ts' row row'} : Solid c → Filled ts ts' row row' → Filled (c :: ts) (c :: ts') (x :: row) (x :: row')
  | text {a b m ts ts' row row'} : OwnText m a b → Filled ts ts' row row' →
      Filled (.lit a m :: ts) (.lit b m :: ts') (a :: row) (b :: row')
  | assign {n v i o ts ts' row row'} : Filled ts ts' row row' →
      Filled (.assign n v i o :: ts) (.assign n v i o :: ts') row row'
  | gap {c ts ts' row row'} : c.method = some .random ∨ c.method = some .cyc → Filled ts ts' row row' →
      Filled (c :: ts) (c :: ts') row row'

/-- A prompt of a sequence, from the texts of its tokens: joined with the separator (the combinatorial sampler puts an
empty text at both ends), and with squashed whitespace if so configured. -/
def assembled (E : Env W) (m : Method) (sep : Str) (row : List Str) : Str :=
  let s := joined sep (if m = .comb then [] :: row ++ [[]] else row)
  if E.ignoreWs then squashWhitespace s else s

/-- Two iterations ended in the same way, in the same world. -/
def EndAlike : Stop W → Stop W → Prop
  | .limit _ w, .limit _ w' => w = w'
  | .stop w, .stop w' => w = w'
  | .raised e w, .raised e' w' => e = e' ∧ w = w'
  | .fuel, .fuel => True
  | _, _ => False

end Verif.Spec
