import Verif.Spec.Language
/-!
# Random templates that remember nothing between prompts
-/

namespace Verif.Spec
open Verif
variable {W : Type}

/-- A wildcard path that is plain text, and the name it stands for. -/
inductive PlainPath (E : Env W) : Prompt → Str → Prop
  | text {s t m} : s ≠ [] → E.parse s = .ok (.lit t m) →
      PlainPath E (.inl s) (if E.ignoreWs then squashWhitespace t else t)
  | lit {t m} : PlainPath E (.inr (.lit t m)) (if E.ignoreWs then squashWhitespace t else t)

/-- Not an assignment that is evaluated immediately (a literal needs no evaluation). -/
def Lazy : Cmd → Prop
  | .assign _ (.lit _ _) _ _ => True
  | .assign _ _ immediate _ => immediate = false
  | _ => True

/-- The variables that the assignments of a sequence define, the last one first; an assignment that
does not overwrite keeps the value the context already has. -/
def defined (vars : List (Str × Cmd)) : List Cmd → List (Str × Cmd)
  | [] => []
  | .assign n v _ overwrite :: cs =>
    defined vars cs ++ [(n, if overwrite then v else (vars.lookup n).getD v)]
  | _ :: cs => defined vars cs

/-- Not a variable assignment. -/
def NotAssign : Cmd → Prop
  | .assign .. => False
  | _ => True

/-- Not a wildcard. -/
def NotWild : Cmd → Prop
  | .wild .. => False
  | _ => True

/-- Templates (sampled randomly, with these variables) whose generator keeps nothing from one prompt
to the next: no cyclical part outside the options of a choice, no immediately evaluated variable, no
wildcard with a computed name or with varying weights.  What the options of a choice or the values of
a wildcard contain does not matter.  `values` tells the values of each wildcard. -/
inductive Memoryless (E : Env W) (values : Str → Except Err (List Item)) :
    List (Str × Cmd) → Cmd → Prop
  | lit {vars s m} : Memoryless E values vars (.lit s m)
  | seq {vars toks sep m} : m ≠ some .cyc → (∀ c ∈ toks, Lazy c) →
      (∀ c ∈ toks, NotAssign c → Memoryless E values (defined vars toks ++ vars) c) →
      Memoryless E values vars (.seq toks sep m)
  | choice {vars opts lo hi sep m} : m ≠ some .cyc → 2 ≤ opts.length →
      Memoryless E values vars (.variant opts lo hi sep m)
  | none {vars lo hi sep m} : Memoryless E values vars (.variant [] lo hi sep m)
  | single {vars c q lo hi sep m} : m ≠ some .cyc → NotWild c → Memoryless E values vars c →
      Memoryless E values vars (.variant [(c, q)] lo hi sep m)
  | choiceOfValues {vars path mw pvars q lo hi sep m wc} : m ≠ some .cyc → PlainPath E path wc →
      (∀ items, values wc = .ok items → (iterateWeighted items).length ≠ 1) →
      Memoryless E values vars (.variant [(.wild path mw pvars, q)] lo hi sep m)
  | wild {vars path m pvars wc} : m ≠ some .cyc → PlainPath E path wc →
      (∀ items, values wc = .ok items → hasVariedWeights items = false) →
      Memoryless E values vars (.wild path m pvars)
  | wrap {vars w i m} : m ≠ some .cyc → Memoryless E values vars w → Memoryless E values vars i →
      Memoryless E values vars (.wrap w i m)
  | access {vars name d} : (∀ c, Resolves E.unknown vars name d c → Memoryless E values vars c) →
      Memoryless E values vars (.access name d)

/-- Two random sources weigh in the same way and draw the same numbers in worlds related by `R`, and the worlds stay
related. -/
structure SameDraws {W' : Type} (R : W → W' → Prop) (r : Rng W) (r' : Rng W') : Prop where
  arith : r.arith = r'.arith
  below : ∀ n w w', R w w' → (r.below n w).1 = (r'.below n w').1 ∧ R (r.below n w).2 (r'.below n w').2
  unit : ∀ w w', R w w' → (r.unit w).1 = (r'.unit w').1 ∧ R (r.unit w).2 (r'.unit w').2

/-- `R w w'` says that `w` and `w'` are proper worlds with the same state of the random generator:
random draws agree and keep it so; looking up a wildcard always gives the values `values` and does
not touch the random generator; re-seeding with the same seed gives the same state. -/
structure SeededWorld (E : Env W) (reseed : Int → W → W) (values : Str → Except Err (List Item))
    (R : W → W → Prop) : Prop where
  symm : ∀ w w', R w w' → R w' w
  trans : ∀ w w' w'', R w w' → R w' w'' → R w w''
  draws : SameDraws R E.rng E.rng
  answers : ∀ wc items w, values wc = .ok items → R w w →
    ∃ w', E.getValues wc w = .ok items w' ∧ R w w'
  fails : ∀ wc e w, values wc = .error e → R w w → ∃ w', E.getValues wc w = .err e w' ∧ R w w'
  reseeds : ∀ s w w', R w w → R w' w' → R (reseed s w) (reseed s w')

end Verif.Spec
