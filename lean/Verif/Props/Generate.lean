import Verif.Proofs.Whole
import Verif.Props.Seeds
import Verif.Props.Random
import Verif.Model.Parser
/-!
# Calls of `generate`

C04, C13 and C54 for the generators: `CombinatorialPromptGenerator.generate` with and without a limit,
`RandomPromptGenerator.generate`.
-/

namespace Verif.Props
open Verif Spec
variable {W : Type}

/-- **C04** for `CombinatorialPromptGenerator.generate`: if the call with `max_prompts=m` returns, then so
does the call with a smaller limit `n` from the same state; it returns the first `n` of those prompts. -/
theorem generate_truncates (E : Env W) (fuel : Nat) (template : Str) (n m : Nat) (hnm : n ≤ m) (w w' : W)
    (ps : List Str) (h : combGenerate E fuel template (some (m : Int)) w = .ok ps w') :
    ps.length ≤ m ∧
    ∃ w'', combGenerate E fuel template (some (n : Int)) w = .ok (ps.take n) w'' := by
  by_cases ht : template = []
  · subst ht
    cases h
    exact ⟨by simp, w, by simp [combGenerate, listPrompts]⟩
  · have e : Err := .value
    have h1 := (generate_unseeded E fuel (fun _ w => w) template m ht w w' ps e).2.2.1.1 h
    unfold samplePrompts at h1
    cases hg : sampleGen E ⟨.comb, [], []⟩ (.inl template) with
    | error e' => rw [hg] at h1; obtain ⟨-, ⟨g, h2⟩ | h2⟩ := h1 <;> cases h2
    | ok g =>
      rw [hg] at h1
      refine ⟨finished_length h1, ?_⟩
      obtain ⟨w'', h2⟩ := collect_take_finished h1 hnm
      refine ⟨w'', (generate_unseeded E fuel (fun _ w => w) template n ht w w'' (ps.take n) e).2.2.1.2 ?_⟩
      unfold samplePrompts
      rw [hg]
      exact h2

/-- **C04**: no limit (`max_prompts=None`) is the limit of all limits: if that call returns, every call with
a limit returns the beginning of its list. -/
theorem unlimited_truncates (E : Env W) (fuel : Nat) (template : Str) (n : Nat) (w w' : W)
    (ps : List Str) (h : combGenerate E fuel template none w = .ok ps w') :
    ∃ w'', combGenerate E fuel template (some (n : Int)) w = .ok (ps.take n) w'' := by
  by_cases ht : template = []
  · subst ht
    cases h
    exact ⟨w, by simp [combGenerate, listPrompts]⟩
  · have hte : template.isEmpty = false := by cases template <;> simp at ht ⊢
    unfold combGenerate listPrompts generatorCtx at h
    rw [hte] at h
    cases hg : sampleGen E ⟨.comb, [], []⟩ (.inl template) with
    | error e' => rw [hg] at h; cases h
    | ok g =>
      rw [hg] at h
      have h1 : collect E fuel fuel g w = (ps, .stop w') := drainList_ok.1 h
      have h2 : collect E fuel (max n (ps.length + 1)) g w = (ps, .stop w') :=
        collect_stop_any h1 (by omega)
      obtain ⟨w'', h3⟩ := collect_take_finished (n := n) (ps := ps) (w' := w')
        (by rw [h2]; exact ⟨rfl, .inr rfl⟩) (le_max_left _ _)
      refine ⟨w'', (generate_unseeded E fuel (fun _ w => w) template n ht w w'' (ps.take n) .value).2.2.1.2 ?_⟩
      unfold samplePrompts
      rw [hg]
      exact h3

/-- **C54** without a limit: `generate(template, max_prompts=None)` returns a list exactly if the iteration
of the sampling context ends after these prompts, and raises exactly what the iteration raises. -/
theorem generate_unlimited (E : Env W) (template : Str) (ht : template ≠ []) (w w' : W) (ps : List Str)
    (e : Err) :
    ((∃ fuel, combGenerate E fuel template none w = .ok ps w') ↔
      ∃ fuel k, samplePrompts E fuel ⟨.comb, [], []⟩ (.inl template) k w = (ps, .stop w')) ∧
    ((∃ fuel, combGenerate E fuel template none w = .err e w') ↔
      ∃ fuel k, (samplePrompts E fuel ⟨.comb, [], []⟩ (.inl template) k w).2 = .raised e w') := by
  have hte : template.isEmpty = false := by cases template <;> simp at ht ⊢
  unfold combGenerate listPrompts generatorCtx samplePrompts
  rw [hte]
  cases hg : sampleGen E ⟨.comb, [], []⟩ (.inl template) with
  | error e' => simp [M.bind_eq, M.lift]
  | ok g =>
    refine ⟨⟨fun ⟨fuel, h⟩ => ⟨fuel, fuel, drainList_ok.1 h⟩, fun ⟨fuel, k, h⟩ => ?_⟩,
      ⟨fun ⟨fuel, h⟩ => ⟨fuel, fuel, drainList_err.1 h⟩, fun ⟨fuel, k, h⟩ => ?_⟩⟩
    · replace h : collect E fuel k g w = (ps, .stop w') := h
      refine ⟨max fuel (ps.length + 1), drainList_ok.2 ?_⟩
      apply collect_stop_any (k := k) _ (by omega)
      rw [collect_fuel_mono (le_max_left _ _) (by rw [h]; simp), h]
    · have h' : collect E fuel k g w = ((collect E fuel k g w).1, .raised e w') := Prod.ext rfl h
      refine ⟨max fuel ((collect E fuel k g w).1.length + 1), drainList_err.2 ?_⟩
      rw [collect_raised_any (k := k) (ps := (collect E fuel k g w).1) (e := e) (w' := w') _ (by omega)]
      rw [collect_fuel_mono (le_max_left _ _) (by rw [h]; simp), h']

/-- **C13** for `RandomPromptGenerator.generate`: for a productive template the call returns, and the list
has exactly the length asked for. -/
theorem random_generate_returns_all (E : Env W) (reseed : Int → W → W) (template : Str) 
    (h : ProdPrompt E .random [] [] (.inl template)) (num : Nat) (w : W) :
    ∃ N, ∀ fuel ≥ N, ∃ ps w', randomGenerate E fuel reseed template num .none w = .ok ps w' ∧
      ps.length = num := by
  have ht : template ≠ [] := by cases h; assumption
  obtain ⟨N, hN⟩ := productive_returns_all E ⟨.random, [], []⟩ (.inl template) h num w
  refine ⟨N, fun fuel hf => ?_⟩
  obtain ⟨h1, g, w', h2⟩ := hN fuel hf
  exact ⟨_, w', (generate_unseeded E fuel reseed template num ht w w' _ .value).1.2
    ⟨rfl, .inl ⟨g, h2⟩⟩, h1⟩

/-- An environment with the real parser. -/
def genEnv : Env Nat := { Demo.env with parse := parse (.default fun _ => false) }

/-- Non-vacuity: `{a|b} x`, with a limit of 5, of 1, and without a limit; random generation of three
prompts. -/
example : (match combGenerate genEnv 40 c!"{a|b} x" (some 5) 0 with | .ok ps _ => ps | _ => []) =
    [c!"a x", c!"b x"] := by decide +kernel
example : (match combGenerate genEnv 40 c!"{a|b} x" (some 1) 0 with | .ok ps _ => ps | _ => []) =
    [c!"a x"] := by decide +kernel
example : (match combGenerate genEnv 40 c!"{a|b} x" none 0 with | .ok ps _ => ps | _ => []) =
    [c!"a x", c!"b x"] := by decide +kernel
example : ProdPrompt genEnv .random [] [] (.inl c!"{a|b} x") := by
  refine .text (c := .seq [.variant [(.lit c!"a" none, 1), (.lit c!"b" none, 1)] 1 1 c!"," none,
    .lit c!" x" none] [] none) (by decide) (by decide +kernel) (simple_prod _ ?_ _ _)
  refine .seq (by decide) fun c hc => ?_
  simp only [List.mem_cons, List.not_mem_nil, or_false] at hc
  rcases hc with rfl | rfl
  · refine .variant (by decide) (by simp) ?_ ?_ (by decide) <;> intro o ho <;>
      simp only [List.mem_cons, List.not_mem_nil, or_false] at ho
    · rcases ho with rfl | rfl <;> exact one_pos
    · rcases ho with rfl | rfl <;> exact .lit (by decide)
  · exact .lit (by decide)

end Verif.Props
