import Verif.Proofs.ReorderingChances
import Verif.Props.Listing
import Verif.Props.Generate
import Verif.Props.Chances
/-!
# C99 The order of options
-/

namespace Verif.Props
open Verif Verif.Spec
variable {W : Type} {E : Env W}

/-- **C99.**  Sampled combinatorially, a template with its options in another order has the same prompts, each as often, in
another order. -/
theorem order_permutes {vars : List (Str × Cmd)} {being : List Str} {p p' : Prompt} {outs : List Str}
    (h : ReorderedPrompt E (fun _ => True) p p') (hp : ListsPrompt E vars being p outs) :
    ∃ outs', ListsPrompt E vars being p' outs' ∧ outs'.Perm outs := by
  cases h with
  | cmd h =>
    cases hp with
    | empty h1 => exact ⟨_, .empty (by rw [reordered_truthy h]; exact h1), .refl _⟩
    | cmd h1 h2 =>
      obtain ⟨os, h3, h4⟩ := lists_reordered h h2
      exact ⟨_, .cmd (by rw [reordered_truthy h]; exact h1) h3, h4.map _⟩
  | text ht ht' h1 h2 h =>
    cases hp with
    | none => exact absurd rfl ht
    | text _ h3 h4 =>
      rw [h1] at h3
      cases h3
      obtain ⟨os, h5, h6⟩ := lists_reordered h h4
      exact ⟨_, .text ht' h2 h5, h6.map _⟩

/-- **C99**, in terms of the prompts generated: if there are no more than `k` prompts, then the first `k` prompts of both
templates are the same up to their order. -/
theorem order_permutes_prompts {vars : List (Str × Cmd)} {being : List Str} {p p' : Prompt} {outs : List Str}
    (h : ReorderedPrompt E (fun _ => True) p p') (hp : ListsPrompt E vars being p outs) (w w' : W) :
    ∃ N, ∀ n, N ≤ n → ∀ k, outs.length ≤ k →
      (samplePrompts E n ⟨.comb, vars, being⟩ p' k w').1.Perm (samplePrompts E n ⟨.comb, vars, being⟩ p k w).1 := by
  obtain ⟨outs', h1, h2⟩ := order_permutes h hp
  obtain ⟨N, hN⟩ := combinatorial_lists E vars being p outs hp w
  obtain ⟨N', hN'⟩ := combinatorial_lists E vars being p' outs' h1 w'
  refine ⟨max N N', fun n hn k hk => ?_⟩
  rw [(hN n (by omega) k).1, (hN' n (by omega) k).1, List.take_of_length_le hk,
    List.take_of_length_le (by rw [h2.length_eq]; exact hk)]
  exact h2

/-- **C99.**  Sampled at random, every text is as likely as before. -/
theorem order_keeps_chances {vars : List (Str × Cmd)} {being : List Str} {p p' : Prompt} {P : Distr Str}
    (h : ReorderedPrompt E Together p p') (hP : ChancePrompt E vars being p P) :
    ∃ P', ChancePrompt E vars being p' P' ∧ ∀ s, P'.of s = P.of s := by
  cases h with
  | cmd h =>
    cases hP with
    | cmd h1 h2 =>
      obtain ⟨P', h3, h4⟩ := chance_reordered h h2
      exact ⟨_, .cmd (by rw [reordered_truthy h]; exact h1) h3, fun s => ((h4.map _).of s).symm⟩
  | text ht ht' h1 h2 h =>
    cases hP with
    | text _ h3 h4 =>
      rw [h1] at h3
      cases h3
      obtain ⟨P', h5, h6⟩ := chance_reordered h h4
      exact ⟨_, .text ht' h2 h5, fun s => ((h6.map _).of s).symm⟩

/-- **C99**, in terms of probabilities. -/
theorem order_keeps_probabilities (hA : E.rng.arith = .exact) {vars : List (Str × Cmd)} {being : List Str} {p p' : Prompt}
    {P : Distr Str} (h : ReorderedPrompt E Together p p') (hP : ChancePrompt E vars being p P)
    (pr : (W → Prop) → ℝ) (hf : Fair E.rng pr) (s : Str) :
    pr (Samples E vars being p' [s]) = pr (Samples E vars being p [s]) := by
  obtain ⟨P', h1, h2⟩ := order_keeps_chances h hP
  rw [prompt_probability E hA vars being p P hP pr hf s, prompt_probability E hA vars being p' P' h1 pr hf s, h2]

/-! ### An example -/

/-- `{2$$ and $$a|{x|y}|z} b` with the options of both choices in another order. -/
theorem other_order (ok : List Rat → Prop) (h : ∀ l, l = [1, 1, 1] → ok l) :
    ReorderedPrompt genEnv ok (.inl c!"{2$$ and $$a|{x|y}|z} b") (.inl c!"{2$$ and $${y|x}|z|a} b") :=
  .text (c := .seq [.variant [(.lit c!"a" none, 1), (.variant [(.lit c!"x" none, 1), (.lit c!"y" none, 1)] 1 1 c!"," none, 1),
      (.lit c!"z" none, 1)] 2 2 c!" and " none, .lit c!" b" none] [] none)
    (c' := .seq [.variant [(.variant [(.lit c!"y" none, 1), (.lit c!"x" none, 1)] 1 1 c!"," none, 1), (.lit c!"z" none, 1),
      (.lit c!"a" none, 1)] 2 2 c!" and " none, .lit c!" b" none] [] none)
    (by decide) (by decide) (by decide +kernel) (by decide +kernel)
    (.seq (.cons (.variant (mid := [(.lit c!"a" none, 1),
        (.variant [(.lit c!"y" none, 1), (.lit c!"x" none, 1)] 1 1 c!"," none, 1), (.lit c!"z" none, 1)])
      (.cons .same (.cons (.variant (.cons .same (.cons .same .nil)) (.swap ..) (by decide +kernel) (by decide +kernel)
        fun h => absurd h (by decide)) (.cons .same .nil)))
      ((List.Perm.swap ..).trans (List.Perm.cons _ (.swap ..))) (by decide +kernel) (by decide +kernel)
      fun _ => h _ rfl) (.cons .same .nil)))

/-- Both are met, and the ten prompts are the same up to order. -/
example : ReorderedPrompt genEnv Together (.inl c!"{2$$ and $$a|{x|y}|z} b") (.inl c!"{2$$ and $${y|x}|z|a} b") :=
  other_order _ (by
    rintro l rfl a b c hs -
    have h := hs.subset
    simp only [List.cons_subset, List.mem_cons, List.not_mem_nil, or_false, or_self, List.nil_subset, and_true] at h
    rw [h.1, h.2.1])

example : (samplePrompts genEnv 40 ⟨.comb, [], []⟩ (.inl c!"{2$$ and $$a|{x|y}|z} b") 20 0).1 =
      [c!"a and x b", c!"a and y b", c!"a and z b", c!"x and a b", c!"y and a b", c!"x and z b", c!"y and z b",
       c!"z and a b", c!"z and x b", c!"z and y b"] ∧
    (samplePrompts genEnv 40 ⟨.comb, [], []⟩ (.inl c!"{2$$ and $${y|x}|z|a} b") 20 0).1 =
      [c!"y and z b", c!"x and z b", c!"y and a b", c!"x and a b", c!"z and y b", c!"z and x b", c!"z and a b",
       c!"a and y b", c!"a and x b", c!"a and z b"] := by decide +kernel

end Verif.Props
