import Verif.Proofs.Unending
import Verif.Props.Abbreviations
import Mathlib.Tactic.IntervalCases
/-!
# C114 Combinatorial prompts without end

A part marked `~` or `@` that is not written directly in a sequence, but in a variable, a value of a wildcard or a wrap, makes the
combinatorial iteration endless (`Spec/Unending.lean` says where, and what the prompts are).
-/

namespace Verif.Props
open Verif Verif.Spec
variable {W : Type}

/-- **C114.**  If `Spec.NeverEndsPrompt` says so, asking for `k` prompts gives `k` prompts, for every `k` and whatever the random source
does; prompt number `i` satisfies the `i`-th predicate; and the iteration stops only because `k` is reached. -/
theorem never_ends (E : Env W) (vars : List (Str × Cmd)) (being : List Str) (p : Prompt) (P : Nat → Str → Prop)
    (h : NeverEndsPrompt E vars being p P) (k : Nat) (w : W) :
    ∃ outs : List Str, outs.length = k ∧ (∀ i s, outs[i]? = some s → P i s) ∧ ∃ N, ∀ fuel ≥ N,
      (samplePrompts E fuel ⟨.comb, vars, being⟩ p k w).1 = outs ∧
      ∃ g w', (samplePrompts E fuel ⟨.comb, vars, being⟩ p k w).2 = .limit g w' := by
  obtain ⟨g, hg, hu⟩ := neverEndsPrompt_unending h
  obtain ⟨outs, h1, N, hN⟩ := PN.collect (hu k) w
  simp only [List.length_map, List.length_range] at hN
  refine ⟨outs, ?_, ?_, N, fun fuel hf => ?_⟩
  · simpa using h1.length_eq.symm
  · intro i s hi
    have := List.forall₂_iff_get.1 h1
    obtain ⟨hl, hget⟩ := List.getElem?_eq_some_iff.1 hi
    have hik : i < ((List.range k).map P).length := by rw [this.1]; exact hl
    have := this.2 i hik hl
    simpa [hget] using this
  · simp only [samplePrompts, hg]
    exact hN fuel hf

/-- **C114.**  In particular, the iteration of a finite template never gives the same: a template that lists its texts is not without
end. -/
theorem not_both [Inhabited W] (E : Env W) (vars : List (Str × Cmd)) (being : List Str) (p : Prompt) (P : Nat → Str → Prop) (outs : List Str)
    (h : NeverEndsPrompt E vars being p P) : ¬ ListsPrompt E vars being p outs := by
  intro hl
  obtain ⟨outs', h1, -, N, hN⟩ := never_ends E vars being p P h (outs.length + 1) default
  obtain ⟨M, hM⟩ := combinatorial_lists E vars being p outs hl default
  have h2 := (hN (max N M) (le_max_left _ _)).1
  have h3 := (hM (max N M) (le_max_right _ _) (outs.length + 1)).1
  rw [h2] at h3
  rw [h3, List.length_take] at h1
  omega

/-! ### Examples -/

/-- A choice of two that goes round. -/
abbrev cdAround : Cmd := .variant [(.lit c!"c" none, 1), (.lit c!"d" none, 1)] 1 1 c!"," (some .cyc)

/-- The second option of the choice before is never reached. -/
theorem stuck : ∃ P, NeverEndsPrompt genEnv [] [] (.inl c!"${x={@c|d}}{a|b} ${x}, {e|f}") P ∧
    ∀ n s, P n s → s = [c!"a c, e", c!"a c, f", c!"a d, e", c!"a d, f"].getD (n % 4) [] := by
  have hlit : ∀ (s : Str) vars being, Lists genEnv vars being (.lit s none) [s] := fun s vars being => .lit (.inl rfl)
  have hv : ∀ (s t : Str) vars being, s ≠ t → s ≠ [] → t ≠ [] → Lists genEnv vars being
      (.variant [(.lit s none, 1), (.lit t none, 1)] 1 1 c!"," none)
      (variantTexts [(.lit s none, 1), (.lit t none, 1)] 1 1 c!"," fun c => match c with | .lit s _ => [s] | _ => []) := by
    intro s t vars being _ _ _
    refine .variant _ (.inl rfl) (by rintro ⟨p, m, v, w, h⟩; simp at h) (by simp) ?_
    intro p hp
    simp at hp
    rcases hp with rfl | rfl <;> exact hlit _ _ _
  have hc : Cycles genEnv ([(c!"x", cdAround)] ++ []) [c!"x"] cdAround _ :=
    .variant (fun c _ => match c with | .lit s _ => s | _ => []) (by simp) (by rintro ⟨p, m, v, w, h⟩; simp at h)
      (by decide +kernel) (by simp) (by
        intro p hp
        simp at hp
        rcases hp with rfl | rfl <;> exact .lit (by simp))
  refine ⟨_, .text (c := .seq [.assign c!"x" cdAround false true, ab, .lit c!" " none, .access c!"x" none, .lit c!", " none,
      .variant [(.lit c!"e" none, 1), (.lit c!"f" none, 1)] 1 1 c!"," none] [] none) (by decide) (by decide +kernel)
    (.seq (before := [ab, .lit c!" " none]) (x := .access c!"x" none)
      (after := [.lit c!", " none, .variant [(.lit c!"e" none, 1), (.lit c!"f" none, 1)] 1 1 c!"," none])
      (as := [c!"a", c!" "]) (.inl rfl)
      (.plain (.inl rfl) (.tok (by simp) (.tok (by simp) (.tok (by simp) (.tok (by simp) (.tok (by simp) .nil))))))
      (.cons (hv c!"a" c!"b" _ _ (by decide) (by decide) (by decide)) (by decide +kernel) (.cons (hlit _ _ _) (by simp) .nil))
      (.cons (by decide +kernel) (.cons rfl .nil)) (.inl rfl)
      (.access (.var rfl rfl) (by simp) (.cyclical rfl hc))
      (.cons (hlit _ _ _) (by simp) (.cons (hv c!"e" c!"f" _ _ (by decide) (by decide) (by decide)) (by decide +kernel) .nil))
      (by decide +kernel)), ?_⟩
  rintro n s ⟨x, ⟨y, rfl, rfl⟩, rfl⟩
  have hR : ∀ f : Cmd → List Str, (f = fun c => match c with | .lit s _ => [s] | _ => []) →
      (product [[c!", "], variantTexts [(.lit c!"e" none, 1), (.lit c!"f" none, 1)] 1 1 c!"," f]).length = 2 := by
    rintro f rfl
    decide +kernel
  rw [hR _ rfl]
  unfold roundRobin
  rw [show (variantSelections [(.lit c!"c" none, 1), (.lit c!"d" none, 1)] 1 1).length = 2 by decide +kernel,
    show n / 2 % 2 = n % 4 / 2 by omega, show n % 2 = n % 4 % 2 by omega]
  have : n % 4 < 4 := Nat.mod_lt _ (by decide)
  generalize n / 2 / 2 = j
  generalize n % 4 = r at this ⊢
  interval_cases r <;> rfl

example : (samplePrompts genEnv 60 ⟨.comb, [], []⟩ (.inl c!"${x={@c|d}}{a|b} ${x}, {e|f}") 6 0).1 =
    [c!"a c, e", c!"a c, f", c!"a d, e", c!"a d, f", c!"a c, e", c!"a c, f"] := by decide +kernel

/-- Wildcards with a value that goes round. -/
def roundEnv : Env Nat := { genEnv with getValues := fun _ => pure [⟨c!"z", some 2⟩, ⟨c!"{@c|d}", none⟩, ⟨c!"y", none⟩] }

theorem round_value (vars : List (Str × Cmd)) (being : List Str) : ∃ P, NeverEndsPrompt roundEnv vars being (.inl c!"{@c|d}") P :=
  ⟨_, .text (c := cdAround) (by decide) (by decide +kernel) (.cyclical rfl
    (.variant (fun c _ => match c with | .lit s _ => s | _ => []) (by simp) (by rintro ⟨p, m, v, w, h⟩; simp at h)
      (by decide +kernel) (by simp) (by
        intro p hp
        simp at hp
        rcases hp with rfl | rfl <;> exact .lit (by simp))))⟩

/-- A wildcard with such a value: the last value is never reached. -/
example : ∃ P, NeverEnds roundEnv [] [] (.wild (.inl c!"w") none []) P := by
  obtain ⟨P, h⟩ := round_value ([] ++ []) []
  exact ⟨_, .wild (p := c!"w") (ps := []) (items := [⟨c!"z", some 2⟩, ⟨c!"{@c|d}", none⟩, ⟨c!"y", none⟩]) (before := [c!"z", c!"z"])
    (after := [c!"y"]) (fun s => [s]) (.inl rfl) (.text (c := .lit c!"w" none) (by decide) (by decide +kernel) (.lit (.inl rfl)))
    (fun w => ⟨w, rfl⟩) (by decide +kernel) (by
      intro y hy
      simp at hy
      subst hy
      exact .text (c := .lit c!"z" none) (by decide) (by decide +kernel) (.lit (.inl rfl))) h⟩

example : (samplePrompts roundEnv 60 ⟨.comb, [], []⟩ (.inl c!"{a|b} __w__") 6 0).1 =
    [c!"a z", c!"a z", c!"a c", c!"a d", c!"a c", c!"a d"] := by decide +kernel

/-- Wraps, around such a part and with it in the wrapper. -/
example : (∃ P, NeverEnds genEnv [] [] (.wrap (.lit c!"<...>" none) cdAround none) P) ∧
    ∃ P, NeverEnds genEnv [] [] (.wrap cdAround (.lit c!"z" none) none) P := by
  have hc : Cycles genEnv [] [] cdAround _ :=
    .variant (fun c _ => match c with | .lit s _ => s | _ => []) (by simp) (by rintro ⟨p, m, v, w, h⟩; simp at h)
      (by decide +kernel) (by simp) (by
        intro p hp
        simp at hp
        rcases hp with rfl | rfl <;> exact .lit (by simp))
  exact ⟨⟨_, .inside (.inl rfl) (.cmd rfl (.lit (.inl rfl))) (.cmd rfl (.cyclical rfl hc))⟩,
    ⟨_, .around (.inl rfl) (.cmd rfl (.cyclical rfl hc)) (.cmd rfl (.lit (.inl rfl))) (by simp)⟩⟩

example : (samplePrompts genEnv 60 ⟨.comb, [], []⟩ (.inl c!"%{{<...>|[...]}$${@c|d}}") 4 0).1 = [c!"<c>", c!"<d>", c!"<c>", c!"<d>"] := by
  decide +kernel

end Verif.Props
