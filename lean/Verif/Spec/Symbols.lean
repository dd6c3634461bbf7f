import Verif.Spec.Language
/-!
# The characters and methods of a command
-/

namespace Verif.Spec
open Verif

/-- The symbol that asks for a sampling method. -/
def methodSymbol : Method → Char
  | .random => '~'
  | .comb => '!'
  | .cyc => '@'

/-- All characters of a text are in `K`. -/
def Over (K : Char → Prop) (s : Str) : Prop := ∀ c ∈ s, K c

/-- Everywhere in a command: the texts (literals, separators, names of wildcards) are made of characters
in `K`, and methods that are asked for are in `A`. -/
inductive Made (K : Char → Prop) (A : Method → Prop) : Cmd → Prop
  | lit {s m} : Over K s → (∀ x ∈ m, A x) → Made K A (.lit s m)
  | seq {toks sep m} : (∀ c ∈ toks, Made K A c) → Over K sep → (∀ x ∈ m, A x) →
      Made K A (.seq toks sep m)
  | variant {opts lo hi sep m} : (∀ o ∈ opts, Made K A o.1) → Over K sep → (∀ x ∈ m, A x) →
      Made K A (.variant opts lo hi sep m)
  | named {p m v} : Over K p → (∀ x ∈ v, Made K A x.2) → (∀ x ∈ m, A x) → Made K A (.wild (.inl p) m v)
  | path {p m v} : Made K A p → (∀ x ∈ v, Made K A x.2) → (∀ x ∈ m, A x) → Made K A (.wild (.inr p) m v)
  | assign {n v i o} : Made K A v → Made K A (.assign n v i o)
  | access {n} : Made K A (.access n none)
  | accessD {n d} : Made K A d → Made K A (.access n (some d))
  | wrap {w i m} : Made K A w → Made K A i → (∀ x ∈ m, A x) → Made K A (.wrap w i m)

end Verif.Spec
