import Verif.Proofs.AbbreviationChances
import Verif.Props.Listing
import Verif.Props.Cyclical
import Verif.Props.Generate
import Verif.Props.Chances
/-!
# C104 Variables as abbreviations
-/

namespace Verif.Props
open Verif Verif.Spec
variable {W : Type} {E : Env W}

/-- **C104**, in terms of the lists of prompts. -/
theorem inlining_keeps_list [Inhabited W] {vars : List (Str × Cmd)} {being : List Str} {p p' : Prompt} {outs : List Str}
    (h : InlinedPrompt E vars p p') (hp : ListsPrompt E vars being p outs) (V : List (Str × Cmd)) (B : List Str) :
    ListsPrompt E V B p' outs := by
  cases h with
  | cmd h ht =>
    cases hp with
    | empty h1 => exact .empty (by rw [ht]; exact h1)
    | cmd h1 h2 => exact .cmd (by rw [ht]; exact h1) (lists_inlined V B h h2)
  | text ht ht' h1 h2 h =>
    cases hp with
    | none => exact absurd rfl ht
    | text _ h3 h4 =>
      rw [h1] at h3
      cases h3
      exact .text ht' h2 (lists_inlined V B h h4)

/-- **C104.**  Sampled combinatorially, a template has the same prompts in the same order as the one in which its variables
are written out, and there it does not matter which variables there are. -/
theorem inlining_keeps_prompts {vars : List (Str × Cmd)} {being : List Str} {p p' : Prompt} {outs : List Str}
    (h : InlinedPrompt E vars p p') (hp : ListsPrompt E vars being p outs) (V : List (Str × Cmd)) (B : List Str) (w w' : W) :
    ∃ N, ∀ n, N ≤ n → ∀ k,
      (samplePrompts E n ⟨.comb, V, B⟩ p' k w').1 = (samplePrompts E n ⟨.comb, vars, being⟩ p k w).1 ∧
      (samplePrompts E n ⟨.comb, vars, being⟩ p k w).1 = outs.take k := by
  have : Inhabited W := ⟨w⟩
  obtain ⟨N, hN⟩ := combinatorial_lists E vars being p outs hp w
  obtain ⟨N', hN'⟩ := combinatorial_lists E V B p' outs (inlining_keeps_list h hp V B) w'
  refine ⟨max N N', fun n hn k => ?_⟩
  rw [(hN n (by omega) k).1, (hN' n (by omega) k).1]
  exact ⟨rfl, rfl⟩

theorem inlining_cycles [Inhabited W] {vars : List (Str × Cmd)} {being : List Str} {p p' : Prompt} {f : Nat → Str}
    (h : InlinedPrompt E vars p p') (hp : CyclesPrompt E vars being p f) (V : List (Str × Cmd)) (B : List Str) :
    CyclesPrompt E V B p' f := by
  cases h with
  | cmd h ht =>
    cases hp with
    | cmd h1 h2 => exact .cmd (by rw [ht]; exact h1) (cycles_inlined V B h h2)
  | text ht ht' h1 h2 h =>
    cases hp with
    | text _ h3 h4 =>
      rw [h1] at h3
      cases h3
      exact .text ht' h2 (cycles_inlined V B h h4)

/-- **C104.**  The same for the cyclical sampler. -/
theorem inlining_keeps_cycles {vars : List (Str × Cmd)} {being : List Str} {p p' : Prompt} {f : Nat → Str}
    (h : InlinedPrompt E vars p p') (hp : CyclesPrompt E vars being p f) (V : List (Str × Cmd)) (B : List Str) (w w' : W) (k : Nat) :
    ∃ N, ∀ n, N ≤ n →
      (samplePrompts E n ⟨.cyc, V, B⟩ p' k w').1 = (samplePrompts E n ⟨.cyc, vars, being⟩ p k w).1 ∧
      (samplePrompts E n ⟨.cyc, vars, being⟩ p k w).1 = (List.range k).map f := by
  have : Inhabited W := ⟨w⟩
  obtain ⟨N, hN⟩ := cyclical_closed_form E vars being p f hp k w
  obtain ⟨N', hN'⟩ := cyclical_closed_form E V B p' f (inlining_cycles h hp V B) k w'
  refine ⟨max N N', fun n hn => ?_⟩
  rw [(hN n (by omega)).1, (hN' n (by omega)).1]
  exact ⟨rfl, rfl⟩

/-- **C104.**  Sampled at random, every text is as likely as in the template in which the variables are written out. -/
theorem inlining_keeps_chances [Inhabited W] {vars : List (Str × Cmd)} {being : List Str} {p p' : Prompt} {P : Distr Str}
    (h : InlinedPrompt E vars p p') (hP : ChancePrompt E vars being p P) (V : List (Str × Cmd)) (B : List Str) :
    ∃ P', ChancePrompt E V B p' P' ∧ ∀ s, P'.of s = P.of s := by
  cases h with
  | cmd h ht =>
    cases hP with
    | cmd h1 h2 =>
      obtain ⟨P', h3, h4⟩ := chance_inlined V B h h2
      exact ⟨_, .cmd (by rw [ht]; exact h1) h3, fun s => ((h4.map _).of s).symm⟩
  | text ht ht' h1 h2 h =>
    cases hP with
    | text _ h3 h4 =>
      rw [h1] at h3
      cases h3
      obtain ⟨P', h5, h6⟩ := chance_inlined V B h h4
      exact ⟨_, .text ht' h2 h5, fun s => ((h6.map _).of s).symm⟩

/-- **C104**, in terms of probabilities. -/
theorem inlining_keeps_probabilities [Inhabited W] (hA : E.rng.arith = .exact) {vars : List (Str × Cmd)} {being : List Str}
    {p p' : Prompt} {P : Distr Str} (h : InlinedPrompt E vars p p') (hP : ChancePrompt E vars being p P)
    (V : List (Str × Cmd)) (B : List Str) (pr : (W → Prop) → ℝ) (hf : Fair E.rng pr) (s : Str) :
    pr (Samples E V B p' [s]) = pr (Samples E vars being p [s]) := by
  obtain ⟨P', h1, h2⟩ := inlining_keeps_chances h hP V B
  rw [prompt_probability E hA vars being p P hP pr hf s, prompt_probability E hA V B p' P' h1 pr hf s, h2]

/-! ### Examples -/

/-- A choice of two. -/
abbrev ab : Cmd := .variant [(.lit c!"a" none, 1), (.lit c!"b" none, 1)] 1 1 c!"," none
/-- A variable defined by another one, used twice, and a default. -/
theorem abbreviated : InlinedPrompt genEnv [] (.inl c!"${x={a|b}}${y=${x}}I like ${y} and {2$$-$$${x}|${z:c}}")
    (.inl c!"I like {a|b} and {2$$-$${a|b}|c}") :=
  .text (c := .seq [.assign c!"x" ab false true, .assign c!"y" (.access c!"x" none) false true, .lit c!"I like " none,
      .access c!"y" none, .lit c!" and " none,
      .variant [(.access c!"x" none, 1), (.access c!"z" (some (.lit c!"c" none)), 1)] 2 2 c!"-" none] [] none)
    (c' := .seq [.lit c!"I like " none, ab, .lit c!" and " none, .variant [(ab, 1), (.lit c!"c" none, 1)] 2 2 c!"-" none] [] none)
    (by decide) (by decide) (by decide +kernel) (by decide +kernel) (by
      have hab : NoVariables genEnv ab := .variant (by
        intro p hp
        simp at hp
        rcases hp with rfl | rfl <;> exact .lit)
      refine .seq (.set (.inr rfl) (.set (.inr rfl) (.part (by simp) (.part (by simp) (.part (by simp) (.part (by simp) .nil)))))) ?_
      refine .cons (.same .lit) (.cons (.access (.var rfl rfl) (.access (.var rfl rfl) (.same hab)))
        (.cons (.same .lit) (.cons (.variant (.cons (.access (.var rfl rfl) (.same hab))
          (.cons (.access (.default rfl rfl) (.same .lit)) .nil)) (by decide +kernel) (by decide +kernel) ?_) .nil)))
      rintro ⟨p, m, v, w, h⟩
      simp at h)

example : (samplePrompts genEnv 40 ⟨.comb, [], []⟩ (.inl c!"${x={a|b}}${x} or ${x}") 20 0).1 =
      [c!"a or a", c!"a or b", c!"b or a", c!"b or b"] ∧
    (samplePrompts genEnv 40 ⟨.comb, [], []⟩ (.inl c!"{a|b} or {a|b}") 20 0).1 =
      [c!"a or a", c!"a or b", c!"b or a", c!"b or b"] := by decide +kernel


example : (samplePrompts genEnv 40 ⟨.cyc, [], []⟩ (.inl c!"${x={a|b}}${x} or ${x}") 3 0).1 = [c!"a or a", c!"b or b", c!"a or a"] ∧
    (samplePrompts genEnv 40 ⟨.cyc, [], []⟩ (.inl c!"{a|b} or {a|b}") 3 0).1 = [c!"a or a", c!"b or b", c!"a or a"] := by
  decide +kernel

/-- A variable that is sampled at once is no abbreviation: its value is the same in all places and all prompts. -/
example : (samplePrompts genEnv 40 ⟨.comb, [], []⟩ (.inl c!"${x=!{a|b}}${x} or ${x}") 20 0).1 = [c!"a or a"] := by decide +kernel

end Verif.Props
