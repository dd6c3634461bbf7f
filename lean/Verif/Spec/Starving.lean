import Verif.Spec.Unending
import Mathlib.Data.List.Dedup
/-!
# Specification of combinatorial templates that stop answering (C115)

`Starving E vars being c N Q`: sampled combinatorially, the command `c` has at most `N` texts, each satisfying `Q`; after the last one,
asking for the next one is never answered.
-/

namespace Verif.Spec
open Verif
variable {W : Type}

mutual
/-- A command that stops answering. -/
inductive Starving (E : Env W) : List (Str × Cmd) → List Str → Cmd → Nat → (Str → Prop) → Prop
  /-- a choice of one option, if one option is without end but has only finitely many different texts `T`: at most the different texts
  of it and of the options before; the options after it are never reached -/
  | variant {vars being before x wx after sep m P} (f : Cmd → List Str) (T : List Str) : Finite m →
      ¬ SingleWild (before ++ (x, wx) :: after) → (∀ p, p ∈ before → Lists E vars being p.1 (f p.1)) →
      Finite x.method → NeverEnds E vars being x P → (∀ n s, P n s → s ∈ T) →
      Starving E vars being (.variant (before ++ (x, wx) :: after) 1 1 sep m)
        (before.flatMap (fun p => f p.1) ++ T).dedup.length (· ∈ before.flatMap (fun p => f p.1) ++ T)
  /-- a choice of one option, if one option is such a command -/
  | option {vars being before x wx after sep m N Q} (f : Cmd → List Str) : Finite m →
      ¬ SingleWild (before ++ (x, wx) :: after) → (∀ p, p ∈ before → Lists E vars being p.1 (f p.1)) →
      Finite x.method → Starving E vars being x N Q →
      Starving E vars being (.variant (before ++ (x, wx) :: after) 1 1 sep m)
        ((before.flatMap (fun p => f p.1)).length + N) (fun s => s ∈ before.flatMap (fun p => f p.1) ∨ Q s)
  /-- a variable, if its definition is such a command -/
  | access {vars being name d c N Q} : Resolves E.unknown vars name d c → name ∉ being → Starving E vars (name :: being) c N Q →
      Starving E vars being (.access name d) N Q
  /-- a sequence with such a part: the parts before never get beyond their first texts -/
  | seq {vars being toks sep m before x after new outss as rests N Q} : Finite m →
      ListsAssigned E vars being toks (before ++ x :: after) new →
      ListsTokens E (new ++ vars) being before outss → List.Forall₂ (fun outs a => outs.head? = some a) outss as →
      Finite x.method → Starving E (new ++ vars) being x N Q →
      ListsTokens E (new ++ vars) being after rests →
      Starving E vars being (.seq toks sep m) (N * (product rests).length)
        (fun s => ∃ y z, Q y ∧ z ∈ product rests ∧ s = joined sep ([] :: as ++ y :: z ++ [[]]))
  /-- a wildcard with such a value: the texts of the values before it, then its texts; the values after it are never reached -/
  | wild {vars being path m v p ps items before x after N Q} (f : Str → List Str) : Finite m →
      ListsPrompt E vars being path (p :: ps) → (∀ w, ∃ w', E.getValues p w = .ok items w') →
      iterateWeighted items = before ++ x :: after → (∀ y, y ∈ before → ListsPrompt E (v ++ vars) being (.inl y) (f y)) →
      StarvingPrompt E (v ++ vars) being (.inl x) N Q →
      Starving E vars being (.wild path m v) ((before.flatMap f).length + N) (fun s => s ∈ before.flatMap f ∨ Q s)
  /-- a wrap around such a part: always the first wrapper -/
  | inside {vars being w i m x xs N Q} : Finite m → ListsPrompt E vars being (.inr w) (x :: xs) →
      StarvingPrompt E vars being (.inr i) N Q → Starving E vars being (.wrap w i m) N (fun s => ∃ y, Q y ∧ s = wrapWith x y)
  /-- such a wrapper: all inner texts for each of its texts -/
  | around {vars being w i m ys N Q} : Finite m → StarvingPrompt E vars being (.inr w) N Q →
      ListsPrompt E vars being (.inr i) ys →
      Starving E vars being (.wrap w i m) (N * ys.length) (fun s => ∃ x y, Q x ∧ y ∈ ys ∧ s = wrapWith x y)
/-- A prompt given as text or command. -/
inductive StarvingPrompt (E : Env W) : List (Str × Cmd) → List Str → Prompt → Nat → (Str → Prop) → Prop
  | text {vars being s c N Q} : s ≠ [] → E.parse s = .ok c → Starving E vars being c N Q →
      StarvingPrompt E vars being (.inl s) N (fun t => ∃ u, Q u ∧ t = squashIf E.ignoreWs u)
  | cmd {vars being c N Q} : c.truthy = true → Starving E vars being c N Q →
      StarvingPrompt E vars being (.inr c) N (fun t => ∃ u, Q u ∧ t = squashIf E.ignoreWs u)
end

end Verif.Spec
