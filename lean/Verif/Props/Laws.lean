import Verif.Proofs.LawCommon
import Verif.Props.Listing
import Verif.Props.Generate
import Verif.Props.Chances
/-!
# C100–C103 Other ways to write a template
-/

namespace Verif
open Spec
variable {W : Type} {E : Env W} {R : Cmd → Cmd → Prop}

theorem Keeps.listsPrompt [Inhabited W] (hR : Keeps E R) {vars : List (Str × Cmd)} {being : List Str} {p p' : Prompt} {outs : List Str}
    (h : WithinPrompt E R p p') (hp : ListsPrompt E vars being p outs) : ListsPrompt E vars being p' outs := by
  cases h with
  | cmd h =>
    cases hp with
    | empty h1 => exact .empty (by rw [within_truthy hR h]; exact h1)
    | cmd h1 h2 => exact .cmd (by rw [within_truthy hR h]; exact h1) (lists_within hR h h2)
  | text ht ht' h1 h2 h =>
    cases hp with
    | none => exact absurd rfl ht
    | text _ h3 h4 =>
      rw [h1] at h3
      cases h3
      exact .text ht' h2 (lists_within hR h h4)

theorem Keeps.prompts (hR : Keeps E R) {vars : List (Str × Cmd)} {being : List Str} {p p' : Prompt} {outs : List Str}
    (h : WithinPrompt E R p p') (hp : ListsPrompt E vars being p outs) (w w' : W) : ∃ N, ∀ n, N ≤ n → ∀ k,
      (samplePrompts E n ⟨.comb, vars, being⟩ p' k w').1 = (samplePrompts E n ⟨.comb, vars, being⟩ p k w).1 ∧
      (samplePrompts E n ⟨.comb, vars, being⟩ p k w).1 = outs.take k := by
  have : Inhabited W := ⟨w⟩
  obtain ⟨N, hN⟩ := Props.combinatorial_lists E vars being p outs hp w
  obtain ⟨N', hN'⟩ := Props.combinatorial_lists E vars being p' outs (hR.listsPrompt h hp) w'
  refine ⟨max N N', fun n hn k => ?_⟩
  rw [(hN n (by omega) k).1, (hN' n (by omega) k).1]
  exact ⟨rfl, rfl⟩

theorem Keeps.chances (hR : Keeps E R) {vars : List (Str × Cmd)} {being : List Str} {p p' : Prompt} {P : Distr Str}
    (h : WithinPrompt E R p p') (hP : ChancePrompt E vars being p P) :
    ∃ P', ChancePrompt E vars being p' P' ∧ ∀ s, P'.of s = P.of s := by
  cases h with
  | cmd h =>
    cases hP with
    | cmd h1 h2 =>
      obtain ⟨P', h3, h4⟩ := chance_within hR h h2
      exact ⟨_, .cmd (by rw [within_truthy hR h]; exact h1) h3, fun s => ((h4.map _).of s).symm⟩
  | text ht ht' h1 h2 h =>
    cases hP with
    | text _ h3 h4 =>
      rw [h1] at h3
      cases h3
      obtain ⟨P', h5, h6⟩ := chance_within hR h h4
      exact ⟨_, .text ht' h2 h5, fun s => ((h6.map _).of s).symm⟩

theorem Keeps.probabilities (hR : Keeps E R) (hA : E.rng.arith = .exact) {vars : List (Str × Cmd)} {being : List Str}
    {p p' : Prompt} {P : Distr Str} (h : WithinPrompt E R p p') (hP : ChancePrompt E vars being p P)
    (pr : (W → Prop) → ℝ) (hf : Fair E.rng pr) (s : Str) :
    pr (Props.Samples E vars being p' [s]) = pr (Props.Samples E vars being p [s]) := by
  obtain ⟨P', h1, h2⟩ := hR.chances h hP
  rw [Props.prompt_probability E hA vars being p P hP pr hf s, Props.prompt_probability E hA vars being p' P' h1 pr hf s, h2]

end Verif

namespace Verif.Props
open Verif Verif.Spec
variable {W : Type} {E : Env W}

/-- **C100.**  Sampled combinatorially, a template with options written several times has the same prompts in the same order; so the first
`k` prompts are the same. -/
theorem copies_keep_prompts {vars : List (Str × Cmd)} {being : List Str} {p p' : Prompt} {outs : List Str}
    (h : WithinPrompt E Copies p p') (hp : ListsPrompt E vars being p outs) (w w' : W) : ∃ N, ∀ n, N ≤ n → ∀ k,
      (samplePrompts E n ⟨.comb, vars, being⟩ p' k w').1 = (samplePrompts E n ⟨.comb, vars, being⟩ p k w).1 ∧
      (samplePrompts E n ⟨.comb, vars, being⟩ p k w).1 = outs.take k := copies_keeps.prompts h hp w w'

/-- **C100**, in terms of the lists of prompts. -/
theorem copies_keep_list [Inhabited W] {vars : List (Str × Cmd)} {being : List Str} {p p' : Prompt} {outs : List Str}
    (h : WithinPrompt E Copies p p') (hp : ListsPrompt E vars being p outs) : ListsPrompt E vars being p' outs :=
  copies_keeps.listsPrompt h hp

/-- **C100.**  Sampled at random, every text is as likely as before. -/
theorem copies_keep_chances {vars : List (Str × Cmd)} {being : List Str} {p p' : Prompt} {P : Distr Str}
    (h : WithinPrompt E Copies p p') (hP : ChancePrompt E vars being p P) :
    ∃ P', ChancePrompt E vars being p' P' ∧ ∀ s, P'.of s = P.of s := copies_keeps.chances h hP

/-- **C100**, in terms of probabilities. -/
theorem copies_keep_probabilities (hA : E.rng.arith = .exact) {vars : List (Str × Cmd)} {being : List Str} {p p' : Prompt}
    {P : Distr Str} (h : WithinPrompt E Copies p p') (hP : ChancePrompt E vars being p P)
    (pr : (W → Prop) → ℝ) (hf : Fair E.rng pr) (s : Str) :
    pr (Samples E vars being p' [s]) = pr (Samples E vars being p [s]) := copies_keeps.probabilities hA h hP pr hf s

/-- **C101.**  Sampled combinatorially, a template with choices inside choices written as one choice has the same prompts in the same order; so the first
`k` prompts are the same. -/
theorem nested_keep_prompts {vars : List (Str × Cmd)} {being : List Str} {p p' : Prompt} {outs : List Str}
    (h : WithinPrompt E Nested p p') (hp : ListsPrompt E vars being p outs) (w w' : W) : ∃ N, ∀ n, N ≤ n → ∀ k,
      (samplePrompts E n ⟨.comb, vars, being⟩ p' k w').1 = (samplePrompts E n ⟨.comb, vars, being⟩ p k w).1 ∧
      (samplePrompts E n ⟨.comb, vars, being⟩ p k w).1 = outs.take k := nested_keeps.prompts h hp w w'

/-- **C101**, in terms of the lists of prompts. -/
theorem nested_keep_list [Inhabited W] {vars : List (Str × Cmd)} {being : List Str} {p p' : Prompt} {outs : List Str}
    (h : WithinPrompt E Nested p p') (hp : ListsPrompt E vars being p outs) : ListsPrompt E vars being p' outs :=
  nested_keeps.listsPrompt h hp

/-- **C101.**  Sampled at random, every text is as likely as before. -/
theorem nested_keep_chances {vars : List (Str × Cmd)} {being : List Str} {p p' : Prompt} {P : Distr Str}
    (h : WithinPrompt E Nested p p') (hP : ChancePrompt E vars being p P) :
    ∃ P', ChancePrompt E vars being p' P' ∧ ∀ s, P'.of s = P.of s := nested_keeps.chances h hP

/-- **C101**, in terms of probabilities. -/
theorem nested_keep_probabilities (hA : E.rng.arith = .exact) {vars : List (Str × Cmd)} {being : List Str} {p p' : Prompt}
    {P : Distr Str} (h : WithinPrompt E Nested p p') (hP : ChancePrompt E vars being p P)
    (pr : (W → Prop) → ℝ) (hf : Fair E.rng pr) (s : Str) :
    pr (Samples E vars being p' [s]) = pr (Samples E vars being p [s]) := nested_keeps.probabilities hA h hP pr hf s

/-- **C102.**  Sampled combinatorially, a template with parts put together in another way has the same prompts in the same order; so the first
`k` prompts are the same. -/
theorem grouped_keep_prompts {vars : List (Str × Cmd)} {being : List Str} {p p' : Prompt} {outs : List Str}
    (h : WithinPrompt E Grouped p p') (hp : ListsPrompt E vars being p outs) (w w' : W) : ∃ N, ∀ n, N ≤ n → ∀ k,
      (samplePrompts E n ⟨.comb, vars, being⟩ p' k w').1 = (samplePrompts E n ⟨.comb, vars, being⟩ p k w).1 ∧
      (samplePrompts E n ⟨.comb, vars, being⟩ p k w).1 = outs.take k := grouped_keeps.prompts h hp w w'

/-- **C102**, in terms of the lists of prompts. -/
theorem grouped_keep_list [Inhabited W] {vars : List (Str × Cmd)} {being : List Str} {p p' : Prompt} {outs : List Str}
    (h : WithinPrompt E Grouped p p') (hp : ListsPrompt E vars being p outs) : ListsPrompt E vars being p' outs :=
  grouped_keeps.listsPrompt h hp

/-- **C102.**  Sampled at random, every text is as likely as before. -/
theorem grouped_keep_chances {vars : List (Str × Cmd)} {being : List Str} {p p' : Prompt} {P : Distr Str}
    (h : WithinPrompt E Grouped p p') (hP : ChancePrompt E vars being p P) :
    ∃ P', ChancePrompt E vars being p' P' ∧ ∀ s, P'.of s = P.of s := grouped_keeps.chances h hP

/-- **C102**, in terms of probabilities. -/
theorem grouped_keep_probabilities (hA : E.rng.arith = .exact) {vars : List (Str × Cmd)} {being : List Str} {p p' : Prompt}
    {P : Distr Str} (h : WithinPrompt E Grouped p p') (hP : ChancePrompt E vars being p P)
    (pr : (W → Prop) → ℝ) (hf : Fair E.rng pr) (s : Str) :
    pr (Samples E vars being p' [s]) = pr (Samples E vars being p [s]) := grouped_keeps.probabilities hA h hP pr hf s

/-- **C103.**  Sampled combinatorially, a template with common beginnings and ends of options taken out of the choice has the same prompts in the same order; so the first
`k` prompts are the same. -/
theorem common_keep_prompts {vars : List (Str × Cmd)} {being : List Str} {p p' : Prompt} {outs : List Str}
    (h : WithinPrompt E Common p p') (hp : ListsPrompt E vars being p outs) (w w' : W) : ∃ N, ∀ n, N ≤ n → ∀ k,
      (samplePrompts E n ⟨.comb, vars, being⟩ p' k w').1 = (samplePrompts E n ⟨.comb, vars, being⟩ p k w).1 ∧
      (samplePrompts E n ⟨.comb, vars, being⟩ p k w).1 = outs.take k := common_keeps.prompts h hp w w'

/-- **C103**, in terms of the lists of prompts. -/
theorem common_keep_list [Inhabited W] {vars : List (Str × Cmd)} {being : List Str} {p p' : Prompt} {outs : List Str}
    (h : WithinPrompt E Common p p') (hp : ListsPrompt E vars being p outs) : ListsPrompt E vars being p' outs :=
  common_keeps.listsPrompt h hp

/-- **C103.**  Sampled at random, every text is as likely as before. -/
theorem common_keep_chances {vars : List (Str × Cmd)} {being : List Str} {p p' : Prompt} {P : Distr Str}
    (h : WithinPrompt E Common p p') (hP : ChancePrompt E vars being p P) :
    ∃ P', ChancePrompt E vars being p' P' ∧ ∀ s, P'.of s = P.of s := common_keeps.chances h hP

/-- **C103**, in terms of probabilities. -/
theorem common_keep_probabilities (hA : E.rng.arith = .exact) {vars : List (Str × Cmd)} {being : List Str} {p p' : Prompt}
    {P : Distr Str} (h : WithinPrompt E Common p p') (hP : ChancePrompt E vars being p P)
    (pr : (W → Prop) → ℝ) (hf : Fair E.rng pr) (s : Str) :
    pr (Samples E vars being p' [s]) = pr (Samples E vars being p [s]) := common_keeps.probabilities hA h hP pr hf s

/-- **C100–C103.**  Sampled combinatorially, a template changed by any of the laws, one after the other has the same prompts in the same order; so the first
`k` prompts are the same. -/
theorem laws_keep_prompts {vars : List (Str × Cmd)} {being : List Str} {p p' : Prompt} {outs : List Str}
    (h : WithinPrompt E Law p p') (hp : ListsPrompt E vars being p outs) (w w' : W) : ∃ N, ∀ n, N ≤ n → ∀ k,
      (samplePrompts E n ⟨.comb, vars, being⟩ p' k w').1 = (samplePrompts E n ⟨.comb, vars, being⟩ p k w).1 ∧
      (samplePrompts E n ⟨.comb, vars, being⟩ p k w).1 = outs.take k := law_keeps.prompts h hp w w'

/-- **C100–C103**, in terms of the lists of prompts. -/
theorem laws_keep_list [Inhabited W] {vars : List (Str × Cmd)} {being : List Str} {p p' : Prompt} {outs : List Str}
    (h : WithinPrompt E Law p p') (hp : ListsPrompt E vars being p outs) : ListsPrompt E vars being p' outs :=
  law_keeps.listsPrompt h hp

/-- **C100–C103.**  Sampled at random, every text is as likely as before. -/
theorem laws_keep_chances {vars : List (Str × Cmd)} {being : List Str} {p p' : Prompt} {P : Distr Str}
    (h : WithinPrompt E Law p p') (hP : ChancePrompt E vars being p P) :
    ∃ P', ChancePrompt E vars being p' P' ∧ ∀ s, P'.of s = P.of s := law_keeps.chances h hP

/-- **C100–C103**, in terms of probabilities. -/
theorem laws_keep_probabilities (hA : E.rng.arith = .exact) {vars : List (Str × Cmd)} {being : List Str} {p p' : Prompt}
    {P : Distr Str} (h : WithinPrompt E Law p p') (hP : ChancePrompt E vars being p P)
    (pr : (W → Prop) → ℝ) (hf : Fair E.rng pr) (s : Str) :
    pr (Samples E vars being p' [s]) = pr (Samples E vars being p [s]) := law_keeps.probabilities hA h hP pr hf s

/-! ### Examples -/

/-- An option of weight two inside a choice of two, written twice. -/
theorem written_twice : WithinPrompt genEnv Copies (.inl c!"{2$$-$$z|{2::x|y}} b") (.inl c!"{2$$-$$z|{x|x|y}} b") :=
  .text (c := .seq [.variant [(.lit c!"z" none, 1),
      (.variant [(.lit c!"x" none, 2), (.lit c!"y" none, 1)] 1 1 c!"," none, 1)] 2 2 c!"-" none, .lit c!" b" none] [] none)
    (c' := .seq [.variant [(.lit c!"z" none, 1),
      (.variant [(.lit c!"x" none, 1), (.lit c!"x" none, 1), (.lit c!"y" none, 1)] 1 1 c!"," none, 1)] 2 2 c!"-" none,
      .lit c!" b" none] [] none)
    (by decide) (by decide) (by decide +kernel) (by decide +kernel)
    (.seq (.cons (.variant (.cons .same (.cons (.law (.mk (before := []) (ws := [1, 1]) (by decide) (by decide)
        (by decide +kernel) (by decide))) .nil)) (by decide +kernel) (by decide +kernel)) (.cons .same .nil)))

example : (samplePrompts genEnv 40 ⟨.comb, [], []⟩ (.inl c!"{2$$-$$z|{2::x|y}} b") 20 0).1 =
      [c!"z-x b", c!"z-y b", c!"x-z b", c!"y-z b"] ∧
    (samplePrompts genEnv 40 ⟨.comb, [], []⟩ (.inl c!"{2$$-$$z|{x|x|y}} b") 20 0).1 =
      [c!"z-x b", c!"z-y b", c!"x-z b", c!"y-z b"] := by decide +kernel

/-- For a cyclical sampler the two differ: it goes round all the copies. -/
example : (samplePrompts genEnv 40 ⟨.cyc, [], []⟩ (.inl c!"{2::x|y}") 4 0).1 = [c!"x", c!"y", c!"x", c!"y"] ∧
    (samplePrompts genEnv 40 ⟨.cyc, [], []⟩ (.inl c!"{x|x|y}") 4 0).1 = [c!"x", c!"x", c!"y", c!"x"] := by decide +kernel

/-- A choice inside a choice, which has three times the weight of the other option. -/
theorem written_flat : WithinPrompt genEnv Nested (.inl c!"{z|3::{2::x|y}} b") (.inl c!"{z|2::x|y} b") :=
  .text (c := .seq [.variant [(.lit c!"z" none, 1),
      (.variant [(.lit c!"x" none, 2), (.lit c!"y" none, 1)] 1 1 c!"," none, 3)] 1 1 c!"," none, .lit c!" b" none] [] none)
    (c' := .seq [.variant [(.lit c!"z" none, 1), (.lit c!"x" none, 2), (.lit c!"y" none, 1)] 1 1 c!"," none,
      .lit c!" b" none] [] none)
    (by decide) (by decide) (by decide +kernel) (by decide +kernel)
    (.seq (.cons (.law (by
      have h := Nested.choice (before := [(.lit c!"z" none, 1)]) (inner := [(.lit c!"x" none, 2), (.lit c!"y" none, 1)]) (x := 3)
        (after := []) (sep := c!",") (sep' := c!",") (m := none) (m' := none) (by decide) (by decide) (by decide) (by decide +kernel)
      have e : ([(.lit c!"z" none, 1)] ++ [((.lit c!"x" none : Cmd), (2 : Rat)), (.lit c!"y" none, 1)].map (fun p =>
          (p.1, 3 * p.2 / total [((.lit c!"x" none : Cmd), (2 : Rat)), (.lit c!"y" none, 1)])) ++ [] : List (Cmd × Rat)) =
          [(.lit c!"z" none, 1), (.lit c!"x" none, 2), (.lit c!"y" none, 1)] := by decide +kernel
      rw [e] at h
      exact h)) (.cons .same .nil)))

/-- In a cyclical sampler these differ as well: the inner choice comes round every second time. -/
example : (samplePrompts genEnv 40 ⟨.cyc, [], []⟩ (.inl c!"{z|{x|y}}") 4 0).1 = [c!"z", c!"x", c!"z", c!"y"] ∧
    (samplePrompts genEnv 40 ⟨.cyc, [], []⟩ (.inl c!"{z|x|y}") 4 0).1 = [c!"z", c!"x", c!"y", c!"z"] := by decide +kernel

/-- The common beginning of two options, with texts split and joined as needed. -/
theorem written_apart : WithinPrompt genEnv Law (.inl c!"{red cat|red dog} b") (.inl c!"red {cat|dog} b") :=
  .text (c := .seq [.variant [(.lit c!"red cat" none, 1), (.lit c!"red dog" none, 1)] 1 1 c!"," none, .lit c!" b" none] [] none)
    (c' := .seq [.lit c!"red " none, .variant [(.lit c!"cat" none, 1), (.lit c!"dog" none, 1)] 1 1 c!"," none,
      .lit c!" b" none] [] none)
    (by decide) (by decide) (by decide +kernel) (by decide +kernel)
    (.trans (.seq (.cons (.trans (.one (.cons (.law (.grouped (.split (a := c!"red ") (b := c!"cat"))))
        (.cons (.law (.grouped (.split (a := c!"red ") (b := c!"dog")))) .nil)))
      (.trans (.law (.common (.beginning (s := c!"red ") (opts := [([.lit c!"cat" none], 1), ([.lit c!"dog" none], 1)])
        (by decide) (by decide))))
        (.seq (.cons .same (.cons (.one (.cons (.law (.grouped (.single (by simp) (by simp) rfl rfl)))
          (.cons (.law (.grouped (.single (by simp) (by simp) rfl rfl))) .nil))) .nil))))) (.cons .same .nil)))
      (.law (.grouped (.splice (before := []) (inner := [.lit c!"red " none,
        .variant [(.lit c!"cat" none, 1), (.lit c!"dog" none, 1)] 1 1 c!"," none]) (after := [.lit c!" b" none]) (by decide)
        (by simp)))))

example : (samplePrompts genEnv 40 ⟨.comb, [], []⟩ (.inl c!"{red cat|red dog} b") 20 0).1 = [c!"red cat b", c!"red dog b"] ∧
    (samplePrompts genEnv 40 ⟨.comb, [], []⟩ (.inl c!"red {cat|dog} b") 20 0).1 = [c!"red cat b", c!"red dog b"] := by
  decide +kernel

end Verif.Props
