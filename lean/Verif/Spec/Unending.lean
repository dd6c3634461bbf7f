import Verif.Spec.Cycle
import Verif.Spec.Lists
/-!
# Specification of combinatorial prompts without end (C114)

`NeverEnds E vars being c P`: sampled combinatorially, the command `c` has a text number `n` for every `n`, and it satisfies `P n`.
-/

namespace Verif.Spec
open Verif
variable {W : Type}

mutual
/-- A command without end. -/
inductive NeverEnds (E : Env W) : List (Str × Cmd) → List Str → Cmd → (Nat → Str → Prop) → Prop
  /-- marked cyclical: round and round -/
  | cyclical {vars being c f} : c.method = some .cyc → Cycles E vars being c f → NeverEnds E vars being c (fun n s => s = f n)
  /-- marked random (or cyclical): any of its texts each time -/
  | marked {vars being c} : c.method = some .random ∨ c.method = some .cyc → Prod E .comb vars being c →
      NeverEnds E vars being c (fun _ => Lang E vars c)
  /-- a variable, if its definition is without end -/
  | access {vars being name d c P} : Resolves E.unknown vars name d c → name ∉ being → NeverEnds E vars (name :: being) c P →
      NeverEnds E vars being (.access name d) P
  /-- a sequence with such a part: the parts before never get beyond their first texts, the parts after go through all their
  combinations for each text of the part without end -/
  | seq {vars being toks sep m before x after new outss as rests P} : Finite m →
      ListsAssigned E vars being toks (before ++ x :: after) new →
      ListsTokens E (new ++ vars) being before outss → List.Forall₂ (fun outs a => outs.head? = some a) outss as →
      Finite x.method → NeverEnds E (new ++ vars) being x P →
      ListsTokens E (new ++ vars) being after rests → product rests ≠ [] →
      NeverEnds E vars being (.seq toks sep m) (fun n s => ∃ y, P (n / (product rests).length) y ∧
        s = joined sep ([] :: as ++ y :: (product rests).getD (n % (product rests).length) [] ++ [[]]))
  /-- a wildcard with such a value: the texts of the values before it, then its texts; the values after it are never reached -/
  | wild {vars being path m v p ps items before x after P} (f : Str → List Str) : Finite m →
      ListsPrompt E vars being path (p :: ps) → (∀ w, ∃ w', E.getValues p w = .ok items w') →
      iterateWeighted items = before ++ x :: after → (∀ y, y ∈ before → ListsPrompt E (v ++ vars) being (.inl y) (f y)) →
      NeverEndsPrompt E (v ++ vars) being (.inl x) P →
      NeverEnds E vars being (.wild path m v) (fun n s =>
        if n < (before.flatMap f).length then s = (before.flatMap f).getD n [] else P (n - (before.flatMap f).length) s)
  /-- a wildcard without values: its name, as it would be written in a template -/
  | missing {vars being s m v p ps} : Finite m → ListsPrompt E vars being (.inl s) (p :: ps) →
      (∀ w, ∃ w', E.getValues p w = .ok [] w') → NeverEnds E vars being (.wild (.inl s) m v) (fun _ t => t = E.toWildcard s)
  /-- the same if its name is a command: the first text of it -/
  | missingNamed {vars being c m v p ps q qs} : Finite m → ListsPrompt E vars being (.inr c) (p :: ps) →
      (∀ w, ∃ w', E.getValues p w = .ok [] w') → ListsPrompt E (v ++ vars) being (.inr c) (q :: qs) →
      NeverEnds E vars being (.wild (.inr c) m v) (fun _ t => t = E.toWildcard q)
  /-- a wrap around such a part: always the first wrapper -/
  | inside {vars being w i m x xs P} : Finite m → ListsPrompt E vars being (.inr w) (x :: xs) →
      NeverEndsPrompt E vars being (.inr i) P → NeverEnds E vars being (.wrap w i m) (fun n s => ∃ y, P n y ∧ s = wrapWith x y)
  /-- a wrapper without end: all inner texts for each of its texts -/
  | around {vars being w i m ys P} : Finite m → NeverEndsPrompt E vars being (.inr w) P →
      ListsPrompt E vars being (.inr i) ys → ys ≠ [] →
      NeverEnds E vars being (.wrap w i m) (fun n s => ∃ x, P (n / ys.length) x ∧ s = wrapWith x (ys.getD (n % ys.length) []))
/-- A prompt given as text or command. -/
inductive NeverEndsPrompt (E : Env W) : List (Str × Cmd) → List Str → Prompt → (Nat → Str → Prop) → Prop
  | text {vars being s c P} : s ≠ [] → E.parse s = .ok c → NeverEnds E vars being c P →
      NeverEndsPrompt E vars being (.inl s) (fun n s => ∃ x, P n x ∧ s = squashIf E.ignoreWs x)
  | cmd {vars being c P} : c.truthy = true → NeverEnds E vars being c P →
      NeverEndsPrompt E vars being (.inr c) (fun n s => ∃ x, P n x ∧ s = squashIf E.ignoreWs x)
end

end Verif.Spec
