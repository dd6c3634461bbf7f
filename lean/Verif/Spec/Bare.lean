import Verif.Model.Command
/-!
# Commands without assignments, defaults and wraps
-/

namespace Verif.Spec

mutual
/-- Neither the command nor anything in it is an assignment, a wrap, or a variable with a default. -/
inductive Bare : Cmd → Prop
  | lit {s : Str} {m : Option Method} : Bare (.lit s m)
  | seq {cs : List Cmd} {sep : Str} {m : Option Method} : (∀ c ∈ cs, Bare c) → Bare (.seq cs sep m)
  | variant {opts : List (Cmd × Rat)} {lo hi : Int} {sep : Str} {m : Option Method} :
      (∀ o ∈ opts, Bare o.1) → Bare (.variant opts lo hi sep m)
  | named {name : Str} {m : Option Method} {params : List (Str × Cmd)} :
      (∀ p ∈ params, Bare p.2) → Bare (.wild (.inl name) m params)
  | path {c : Cmd} {m : Option Method} {params : List (Str × Cmd)} :
      BarePath c → (∀ p ∈ params, Bare p.2) → Bare (.wild (.inr c) m params)
  | access {n : Str} : Bare (.access n none)
/-- The same for the path of a wildcard, where a variable without a default has its own name as its
default. -/
inductive BarePath : Cmd → Prop
  | lit {s : Str} {m : Option Method} : BarePath (.lit s m)
  | seq {cs : List Cmd} {sep : Str} {m : Option Method} : (∀ c ∈ cs, BarePath c) → BarePath (.seq cs sep m)
  | variant {opts : List (Cmd × Rat)} {lo hi : Int} {sep : Str} {m : Option Method} :
      (∀ o ∈ opts, Bare o.1) → BarePath (.variant opts lo hi sep m)
  | access {n : Str} : BarePath (.access n (some (.lit n none)))
end

end Verif.Spec
