import Verif.Proofs.RandomFree
import Verif.Spec.Demo
/-!
# C06 templates without a random part never consult the random generator
-/

namespace Verif.Props
open Verif Spec
variable {W W' : Type}

/-- Simulation for templates without randomness: with *any* other random source `rng'` and a wildcard
manager that answers alike (as expressed by a relation `R` between the worlds), exactly the same
prompts are produced and the iteration ends in the same way. -/
theorem deterministic_run (E : Env W) (ctx : Ctx) (p : Prompt) (h : NoRandomness E ctx p)
    (rng' : Rng W') (getValues' : Str → M W' (List Item)) (R : W → W' → Prop)
    (hgv : ∀ wc w w', R w w' → SameOutcome R (E.getValues wc w) (getValues' wc w'))
    (fuel k : Nat) (w : W) (w' : W') (hw : R w w') :
    (samplePrompts E fuel ctx p k w).1 =
        (samplePrompts (swapWorld E rng' getValues') fuel ctx p k w').1 ∧
      SameStop R (samplePrompts E fuel ctx p k w).2
        (samplePrompts (swapWorld E rng' getValues') fuel ctx p k w').2 := by
  unfold samplePrompts
  rw [sampleGen_swap]
  cases hg : sampleGen E ctx p with
  | error e => exact ⟨rfl, rfl, hw⟩
  | ok g =>
    have hp : PromptOK E p := by
      cases p with
      | inl s => exact fun c hc => h.text s c rfl hc
      | inr c => exact h.template c rfl
    exact collect_NR h.unknown hgv fuel k (sampleGen_NR h.unknown ⟨h.method, h.vars⟩ hp hg) w w' hw

/-- **C06.**  The prompts do not depend on the random source: replacing it by any other one changes
neither the prompts nor how the iteration ends nor the final world. -/
theorem rng_irrelevant (E : Env W) (ctx : Ctx) (p : Prompt) (h : NoRandomness E ctx p)
    (rng' : Rng W) (fuel k : Nat) (w : W) :
    samplePrompts E fuel ctx p k w = samplePrompts { E with rng := rng' } fuel ctx p k w := by
  obtain ⟨h1, h2⟩ := deterministic_run E ctx p h rng' E.getValues Eq
    (fun wc w w' e => by subst e; cases E.getValues wc w <;> simp [SameOutcome]) fuel k w w rfl
  refine Prod.ext h1 ?_
  have h2' : SameStop Eq (samplePrompts E fuel ctx p k w).2
      (samplePrompts { E with rng := rng' } fuel ctx p k w).2 := h2
  revert h2'
  cases (samplePrompts E fuel ctx p k w).2 <;>
    cases (samplePrompts { E with rng := rng' } fuel ctx p k w).2 <;> simp [SameStop]

/-- **C06.**  The state of the random generator is not changed.  `rngState` is any part of the world
that the wildcard manager leaves alone. -/
theorem rng_state_unchanged {S : Type} (E : Env W) (ctx : Ctx) (p : Prompt)
    (h : NoRandomness E ctx p) (rngState : W → S)
    (hgv : ∀ wc w, (∀ a w', E.getValues wc w = .ok a w' → rngState w' = rngState w) ∧
      ∀ e w', E.getValues wc w = .err e w' → rngState w' = rngState w)
    (fuel k : Nat) (w w' : W) (hw : Spec.worldAfter (samplePrompts E fuel ctx p k w).2 = some w') :
    rngState w' = rngState w := by
  obtain ⟨-, h2⟩ := deterministic_run E ctx p h E.rng E.getValues
    (fun a b => a = b ∧ rngState a = rngState w)
    (fun wc a b e => by
      obtain ⟨rfl, he⟩ := e
      have h3 := hgv wc a
      cases hx : E.getValues wc a with
      | ok x w1 => exact ⟨rfl, rfl, (h3.1 x w1 hx).trans he⟩
      | err x w1 => exact ⟨rfl, rfl, (h3.2 x w1 hx).trans he⟩
      | fuel => trivial) fuel k w w ⟨rfl, rfl⟩
  have h2' : SameStop (fun a b => a = b ∧ rngState a = rngState w) (samplePrompts E fuel ctx p k w).2
      (samplePrompts E fuel ctx p k w).2 := h2
  revert h2' hw
  cases (samplePrompts E fuel ctx p k w).2 <;>
    simp only [Spec.worldAfter, SameStop, Option.some.injEq, reduceCtorEq, false_imp_iff] <;>
    (rintro rfl h; first | exact h.2.2 | exact h.2)

/-- **C06.**  If the wildcard manager's answers do not depend on the world, the prompts do not depend
on it either: repeated calls, in whatever state earlier calls have left the world, return the same
list. -/
theorem repeatable (E : Env W) (ctx : Ctx) (p : Prompt) (h : NoRandomness E ctx p)
    (hgv : ∀ wc w w', SameOutcome (fun _ _ => True) (E.getValues wc w) (E.getValues wc w'))
    (fuel k : Nat) (w w' : W) :
    (samplePrompts E fuel ctx p k w).1 = (samplePrompts E fuel ctx p k w').1 :=
  (deterministic_run E ctx p h E.rng E.getValues (fun _ _ => True) (fun wc w w' _ => hgv wc w w')
    fuel k w w' trivial).1

/-- Non-vacuity: `{a|__colors__} {@x|y}` in a combinatorial context. -/
example : NoRandomness Demo.env (Demo.ctx .comb) (.inr (.seq [
    .variant [(.lit c!"a" none, 1), (.wild (.inl c!"colors") none [], 1)] 1 1 c!"," none,
    Demo.oneOf [c!"x", c!"y"] (some .cyc)] [] none)) := by
  refine ⟨by simp [Demo.ctx], ?_, by simp, by simp [Demo.ctx], by simp [Demo.env]⟩
  rintro c ⟨⟩
  refine randomFree_of (by simp [Cmd.method]) ?_
  rintro c (h | _)
  simp only [List.mem_cons, List.not_mem_nil, or_false] at h
  rcases h with rfl | rfl
  · refine randomFree_of (by simp [Cmd.method]) ?_
    rintro c (_ | h)
    simp only [List.mem_cons, List.not_mem_nil, or_false] at h
    rcases h with rfl | rfl
    · exact randomFree_lit (by simp)
    · refine randomFree_of (by simp [Cmd.method]) ?_
      rintro c hp
      cases hp with
      | pathText h => cases h; exact randomFree_lit (by simp)
      | param h => simp at h
      | value _ _ _ h => cases h; exact randomFree_lit (by simp)
  · refine randomFree_of (by simp [Cmd.method, Demo.oneOf]) ?_
    rintro c (_ | h)
    simp only [List.map_cons, List.map_nil, List.mem_cons, List.not_mem_nil, or_false] at h
    rcases h with rfl | rfl <;> exact randomFree_lit (by simp)

/-- Its prompts. -/
example : (samplePrompts Demo.env 60 (Demo.ctx .comb) (.inr (.seq [
    .variant [(.lit c!"a" none, 1), (.wild (.inl c!"colors") none [], 1)] 1 1 c!"," none,
    .lit c!" " none, Demo.oneOf [c!"x", c!"y"] (some .cyc)] [] none)) 9 0).1 =
      [c!"a x", c!"red y", c!"blue x"] := by decide +kernel

end Verif.Props
