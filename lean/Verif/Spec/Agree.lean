import Verif.Spec.Enumerate
/-!
# Templates for which all sampling methods know the same prompts
-/

namespace Verif.Spec
open Verif

/-- Templates of literals, sequences, choices and wraps as the parser makes them, with positive weights and without a
random or cyclical part.  A choice either picks one option, or no two of its options share a text. -/
inductive SamePrompts : Cmd → Prop
  | lit {s m} : Finite m → SamePrompts (.lit s m)
  | seq {toks m} : Finite m → (∀ c, c ∈ toks → SamePrompts c) → SamePrompts (.seq toks [] m)
  | one {opts sep m} : Finite m → opts ≠ [] → (∀ p, p ∈ opts → 0 < p.2) → (∀ p, p ∈ opts → SamePrompts p.1) →
      SamePrompts (.variant opts 1 1 sep m)
  | several {opts lo hi sep m} : Finite m → 2 ≤ opts.length → (∀ p, p ∈ opts → 0 < p.2) →
      (∀ p, p ∈ opts → SamePrompts p.1) → 0 ≤ max lo hi →
      (opts.map (·.1)).Pairwise (fun a b => ∀ s, s ∈ enum false a → s ∉ enum false b) →
      SamePrompts (.variant opts lo hi sep m)
  | wrap {wr inn m} : Finite m → wr.truthy = true → inn.truthy = true → SamePrompts wr → SamePrompts inn →
      SamePrompts (.wrap wr inn m)

end Verif.Spec
