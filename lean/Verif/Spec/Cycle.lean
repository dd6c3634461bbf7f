import Verif.Spec.Variables
import Verif.Spec.Enumerate
/-!
# The closed form of cyclical sampling

`Cycles E vars being c f`: sampled cyclically with variables `vars` (and `being` under evaluation),
the `k`-th text (counted from 0) of command `c` is `f k`.  No state, no queue: every position is
computed from `k` alone.
-/

namespace Verif.Spec
open Verif
variable {W : Type}

/-- The ordered selections of options a variant goes through, in order: by size, and for each size
all selections of different options. -/
def variantSelections (opts : List (Cmd × Rat)) (lo hi : Int) : List (List Cmd) :=
  (sizes opts.length lo hi).flatMap fun k => selections k (opts.map (·.1))

/-- Going round `n` streams in turn: position `k` belongs to stream `k mod n`, which is then at its
own position `k div n`. -/
def roundRobin {α : Type} (n : Nat) (f : Nat → Nat → α) (k : Nat) : α := f (k % n) (k / n)

mutual
/-- The `k`-th text of a command. -/
inductive Cycles (E : Env W) : List (Str × Cmd) → List Str → Cmd → (Nat → Str) → Prop
  /-- a literal is constant -/
  | lit {vars being s m} : m ≠ some .random → Cycles E vars being (.lit s m) (fun _ => s)
  /-- a sequence joins the `k`-th texts of its tokens -/
  | seq {vars being toks sep m toks' new fs} : m ≠ some .random →
      CyclesAssigned E vars being toks toks' new → CyclesAll E (new ++ vars) being toks' fs →
      Cycles E vars being (.seq toks sep m) (fun k => joined sep (fs.map fun f => f k))
  /-- a variant with `n` selections shows selection `k mod n`, its options being at position
  `k div n` -/
  | variant {vars being opts lo hi sep m} (f : Cmd → Nat → Str) : m ≠ some .random →
      ¬ SingleWild opts → variantSelections opts lo hi ≠ [] → opts ≠ [] →
      (∀ p, p ∈ opts → Cycles E vars being p.1 (f p.1)) →
      Cycles E vars being (.variant opts lo hi sep m)
        (roundRobin (variantSelections opts lo hi).length fun i j =>
          joined sep (((variantSelections opts lo hi).getD i []).map fun c => f c j))
  /-- a variant consisting of one wildcard is the variant of the wildcard's values -/
  | variantWild {vars being path m' v wt lo hi sep m p items cs f} : m ≠ some .random →
      CyclesPrompt E vars being path p → (∀ w, ∃ w', E.getValues (p 0) w = .ok items w') →
      ParsesAll E (iterateWeighted items) cs →
      Cycles E vars being (Cmd.mkVariant (cs.map (fun c => (c, 1))) (min lo items.length)
        (min hi items.length) sep none) f →
      Cycles E vars being (.variant [(.wild path m' v, wt)] lo hi sep m) f
  /-- a wildcard goes round its values -/
  | wild {vars being path m v p items} (f : Str → Nat → Str) : m ≠ some .random →
      CyclesPrompt E vars being path p → (∀ w, ∃ w', E.getValues (p 0) w = .ok items w') →
      items ≠ [] → iterateWeighted items ≠ [] →
      (∀ x, x ∈ iterateWeighted items → CyclesPrompt E (v ++ vars) being (.inl x) (f x)) →
      Cycles E vars being (.wild path m v)
        (roundRobin (iterateWeighted items).length fun i j => f ((iterateWeighted items).getD i []) j)
  /-- a wildcard without values -/
  | wildMissing {vars being s m v p} : m ≠ some .random → CyclesPrompt E vars being (.inl s) p →
      (∀ w, ∃ w', E.getValues (p 0) w = .ok [] w') →
      Cycles E vars being (.wild (.inl s) m v) (fun _ => E.toWildcard s)
  | access {vars being name d c f} : Resolves E.unknown vars name d c → name ∉ being →
      Cycles E vars (name :: being) c f → Cycles E vars being (.access name d) f
/-- A list of commands. -/
inductive CyclesAll (E : Env W) : List (Str × Cmd) → List Str → List Cmd → List (Nat → Str) → Prop
  | nil {vars being} : CyclesAll E vars being [] []
  | cons {vars being c cs f fs} : Cycles E vars being c f → CyclesAll E vars being cs fs →
      CyclesAll E vars being (c :: cs) (f :: fs)
/-- A prompt given as text or command. -/
inductive CyclesPrompt (E : Env W) : List (Str × Cmd) → List Str → Prompt → (Nat → Str) → Prop
  | text {vars being s c f} : s ≠ [] → E.parse s = .ok c → Cycles E vars being c f →
      CyclesPrompt E vars being (.inl s) (fun k => squashIf E.ignoreWs (f k))
  | cmd {vars being c f} : c.truthy = true → Cycles E vars being c f →
      CyclesPrompt E vars being (.inr c) (fun k => squashIf E.ignoreWs (f k))
/-- The tokens and bindings of a sequence; an immediate assignment binds the first text. -/
inductive CyclesAssigned (E : Env W) :
    List (Str × Cmd) → List Str → List Cmd → List Cmd → List (Str × Cmd) → Prop
  | nil {vars being} : CyclesAssigned E vars being [] [] []
  | tok {vars being c cs toks new} : (∀ n v i o, c ≠ .assign n v i o) →
      CyclesAssigned E vars being cs toks new → CyclesAssigned E vars being (c :: cs) (c :: toks) new
  | keep {vars being n v i cs toks new c} : vars.lookup n = some c →
      CyclesAssigned E vars being cs toks new →
      CyclesAssigned E vars being (.assign n v i false :: cs) toks (new ++ [(n, c)])
  | plain {vars being n v o cs toks new} : (o = true ∨ vars.lookup n = none) →
      CyclesAssigned E vars being cs toks new →
      CyclesAssigned E vars being (.assign n v false o :: cs) toks (new ++ [(n, v)])
  | literal {vars being n s m o cs toks new} : (o = true ∨ vars.lookup n = none) →
      CyclesAssigned E vars being cs toks new →
      CyclesAssigned E vars being (.assign n (.lit s m) true o :: cs) toks (new ++ [(n, .lit s m)])
  | immediate {vars being n v o cs toks new f} : (o = true ∨ vars.lookup n = none) →
      (∀ s m, v ≠ .lit s m) → Cycles E vars being v f → CyclesAssigned E vars being cs toks new →
      CyclesAssigned E vars being (.assign n v true o :: cs) toks (new ++ [(n, .lit (f 0) none)])
end

end Verif.Spec
