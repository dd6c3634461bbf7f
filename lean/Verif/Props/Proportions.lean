import Verif.Proofs.Proportions
import Verif.Proofs.Reweighted
import Verif.Props.Rounding
import Verif.Props.Generate
import Verif.Props.Chances
/-!
# C98 Only the proportions of weights matter
-/

namespace Verif.Props
open Verif Verif.Spec
variable {W : Type} {E : Env W} {q : Rat}

/-! ### Multiplying all the weights of a template -/

theorem scaled_vars {vars vars' : List (Str × Cmd)} (h : ScaledVars q vars vars') :
    VarsS (fun x => x = 1 ∨ x = q) vars vars' := by
  induction h with
  | nil => exact .nil
  | @same n c vs vs' _ ih =>
    have : VarsS (fun x => x = 1 ∨ x = q) ((n, c) :: vs) ((n, Cmd.scale 1 c) :: vs') := .cons (.inl rfl) ih
    rwa [scale_one] at this
  | scaled _ ih => exact .cons (.inr rfl) ih

/-- **C98.**  A template with all its weights multiplied by the same number gives the same prompts, ends in the same way and
leaves everything in the same state: the same random numbers lead to the same choices. -/
theorem weights_multiplied {m : Method} {vars vars' : List (Str × Cmd)} {being : List Str} {p p' : Prompt}
    (hA : Proportional E.rng.arith q) (hv : ScaledVars q vars vars') (h : ScaledPrompt E q p p') (n k : Nat) (w : W) :
    (samplePrompts E n ⟨m, vars', being⟩ p' k w).1 = (samplePrompts E n ⟨m, vars, being⟩ p k w).1 ∧
      SameEnding (samplePrompts E n ⟨m, vars, being⟩ p k w).2 (samplePrompts E n ⟨m, vars', being⟩ p' k w).2 := by
  have hQ : Factors E (fun x => x = 1 ∨ x = q) := ⟨.inl rfl, by
    rintro x (rfl | rfl)
    · exact ⟨one_pos, by simp, by simp⟩
    · exact hA⟩
  have hctx : CtxS (fun x => x = 1 ∨ x = q) ⟨m, vars, being⟩ ⟨m, vars', being⟩ := .mk (scaled_vars hv)
  have key : ∀ {x y : Except Err Gen}, LiftMirror id (RS fun x => x = 1 ∨ x = q) x y →
      ((match y with | .error e => ([], Stop.raised e w) | .ok g => collect E n k g w).1 : List Str) =
        ((match x with | .error e => ([], Stop.raised e w) | .ok g => collect E n k g w).1 : List Str) ∧
      SameEnding (match x with | .error e => ([], Stop.raised e w) | .ok g => collect E n k g w : List Str × Stop W).2
        (match y with | .error e => ([], Stop.raised e w) | .ok g => collect E n k g w : List Str × Stop W).2 := by
    intro x y h
    rcases h.cases with ⟨e, rfl, rfl⟩ | ⟨g, g', rfl, rfl, h⟩
    · exact ⟨rfl, (err_rename_id e).symm, rfl⟩
    · exact collect_RS hQ n k h w
  refine key ?_
  cases h with
  | @cmd c => exact sampleGen_RS hQ (p := .inr c) hctx (.inr rfl)
  | @text t t' c ht ht' h1 h2 =>
    have e1 : t.isEmpty = false := by cases t <;> simp_all
    have e2 : t'.isEmpty = false := by cases t' <;> simp_all
    simp only [sampleGen, h1, h2, e1, e2, Bool.false_eq_true, if_false]
    rcases (mkGen_RS hQ hctx (q := q) (c := c) (.inr rfl)).cases with ⟨e, h3, h4⟩ | ⟨g, g', h3, h4, h5⟩
    · rw [h3, h4]; exact rfl
    · rw [h3, h4]
      cases E.ignoreWs
      · exact h5
      · exact .squash h5

/-- With exact arithmetic every positive number will do. -/
theorem exact_proportional (hq : 0 < q) : Proportional .exact q :=
  ⟨hq, fun a b => by simp only [Arith.exact]; ring, fun u t => by simp only [Arith.exact]; ring⟩

theorem log_two_times {x : Rat} (hx : 0 < x) (i : Int) : Int.log 2 (2 ^ i * x) = i + Int.log 2 x := by
  have h2 : (0 : Rat) < 2 ^ i := zpow_pos (by norm_num) i
  have key : ∀ j : Int, j ≤ Int.log 2 (2 ^ i * x) ↔ j ≤ i + Int.log 2 x := by
    intro j
    have e1 := Int.zpow_le_iff_le_log (b := 2) (by decide) (x := j) (mul_pos h2 hx)
    have e2 := Int.zpow_le_iff_le_log (b := 2) (by decide) (x := j - i) hx
    rw [← e1, show j ≤ i + Int.log 2 x ↔ j - i ≤ Int.log 2 x by omega, ← e2]
    push_cast
    rw [zpow_sub₀ (by norm_num), div_le_iff₀ h2, mul_comm x]
  exact le_antisymm ((key _).1 le_rfl) ((key _).2 le_rfl)

theorem roundTo_two_times (p : Nat) (x : Rat) (i : Int) : roundTo p (2 ^ i * x) = 2 ^ i * roundTo p x := by
  have h2 : (0 : Rat) < 2 ^ i := zpow_pos (by norm_num) i
  unfold roundTo
  by_cases hx : x = 0
  · simp [hx]
  · rw [if_neg hx, if_neg (mul_ne_zero h2.ne' hx), abs_mul, abs_of_pos h2, log_two_times (abs_pos.2 hx),
      show i + Int.log 2 |x| + 1 - (p : Int) = i + (Int.log 2 |x| + 1 - p) by ring, zpow_add₀ (by norm_num),
      mul_div_mul_left _ _ h2.ne']
    ring

theorem binary_two_times (p : Nat) (x : Rat) (i : Int) : Binary p (2 ^ i * x) ↔ Binary p x := by
  have key : ∀ (x : Rat) (i : Int), Binary p x → Binary p (2 ^ i * x) := by
    rintro x i ⟨m, e, hm, rfl⟩
    exact ⟨m, i + e, hm, by rw [zpow_add₀ (by norm_num)]; ring⟩
  refine ⟨fun h => ?_, key x i⟩
  have := key _ (-i) h
  rwa [← mul_assoc, ← zpow_add₀ (by norm_num), neg_add_cancel, zpow_zero, one_mul] at this

/-- **C98.**  With floating point numbers of any precision, every power of two will do. -/
theorem floats_proportional {p : Nat} (hp : 1 ≤ p) (i : Int) :
    Proportional (floats p hp (roundTo p) (roundTo_nearest hp)) (2 ^ i) := by
  refine ⟨zpow_pos (by norm_num) i, fun a b => ?_, fun u t => ?_⟩
  · simp only [floats, ← mul_add, roundTo_two_times]
    by_cases h : Binary p a ∧ Binary p b
    · rw [if_pos h, if_pos (by simpa only [binary_two_times] using h)]
    · rw [if_neg h, if_neg (by simpa only [binary_two_times] using h)]
  · simp only [floats, mul_left_comm u, roundTo_two_times]
    by_cases h : Binary p u ∧ Binary p t
    · rw [if_pos h, if_pos (by simpa only [binary_two_times] using h)]
    · rw [if_neg h, if_neg (by simpa only [binary_two_times] using h)]

/-! ### A factor of its own for each choice -/

/-- **C98.**  The chances of prompts depend only on the proportions of the weights within each choice. -/
theorem proportions_decide {vars vars' : List (Str × Cmd)} {being : List Str} {p p' : Prompt} {P : Distr Str}
    (hv : ReweightedVars vars vars') (h : ReweightedPrompt E p p') (hP : ChancePrompt E vars being p P) :
    ChancePrompt E vars' being p' P := by
  cases h with
  | cmd h => exact chancePrompt_reweighted hv (.cmd h) hP
  | text ht ht' h1 h2 h =>
    cases hP with
    | text _ h3 h4 =>
      rw [h1] at h3
      cases h3
      exact .text ht' h2 (chance_reweighted hv h h4)

/-- **C98**, in terms of probabilities: with a fair source of random numbers, each text is as likely as before. -/
theorem proportions_probability (hA : E.rng.arith = .exact) {vars vars' : List (Str × Cmd)} {being : List Str} {p p' : Prompt}
    {P : Distr Str} (hv : ReweightedVars vars vars') (h : ReweightedPrompt E p p') (hP : ChancePrompt E vars being p P)
    (pr : (W → Prop) → ℝ) (hf : Fair E.rng pr) (s : Str) :
    pr (Samples E vars' being p' [s]) = pr (Samples E vars being p [s]) := by
  rw [prompt_probability E hA vars being p P hP pr hf s,
    prompt_probability E hA vars' being p' P (proportions_decide hv h hP) pr hf s]

/-! ### Examples -/

/-- `{1::a|3::b}` and `{2::a|6::b}`. -/
example : ScaledPrompt genEnv 2 (.inl c!"{1::a|3::b} {x|y}") (.inl c!"{2::a|6::b} {2::x|2::y}") ∧
    Proportional genEnv.rng.arith 2 :=
  ⟨.text (c := .seq [.variant [(.lit c!"a" none, 1), (.lit c!"b" none, 3)] 1 1 c!"," none, .lit c!" " none,
      .variant [(.lit c!"x" none, 1), (.lit c!"y" none, 1)] 1 1 c!"," none] [] none)
    (by decide) (by decide) (by decide +kernel) (by decide +kernel), exact_proportional (by norm_num)⟩

/-- Each choice by its own factor: `{1::a|3::b} {x|y}` and `{5::a|15::b} {2::x|2::y}`. -/
example : ReweightedPrompt genEnv (.inl c!"{1::a|3::b} {x|y}") (.inl c!"{5::a|15::b} {2::x|2::y}") :=
  .text (c := .seq [.variant [(.lit c!"a" none, 1), (.lit c!"b" none, 3)] 1 1 c!"," none, .lit c!" " none,
      .variant [(.lit c!"x" none, 1), (.lit c!"y" none, 1)] 1 1 c!"," none] [] none)
    (c' := .seq [.variant [(.lit c!"a" none, 5 * 1), (.lit c!"b" none, 5 * 3)] 1 1 c!"," none, .lit c!" " none,
      .variant [(.lit c!"x" none, 2 * 1), (.lit c!"y" none, 2 * 1)] 1 1 c!"," none] [] none)
    (by decide) (by decide) (by decide +kernel) (by decide +kernel)
    (.seq (.cons (.variant (q := 5) (by norm_num) (.cons .same (.cons .same .nil)) (by intro h; exact absurd h (by decide)))
      (.cons .same (.cons (.variant (q := 2) (by norm_num) (.cons .same (.cons .same .nil))
        (by intro h; exact absurd h (by decide))) .nil))))

/-- `{1::a|3::b}` and `{2::a|6::b}` give the same prompt from the same random number. -/
example : (samplePrompts genEnv 20 ⟨.random, [], []⟩ (.inr (.variant [(.lit c!"a" none, 1), (.lit c!"b" none, 3)] 1 1 [] none)) 1 0).1 =
  (samplePrompts genEnv 20 ⟨.random, [], []⟩ (.inr (.variant [(.lit c!"a" none, 2), (.lit c!"b" none, 6)] 1 1 [] none)) 1 0).1 :=
  ((weights_multiplied (q := 2) (exact_proportional (by norm_num)) .nil
    (.cmd (c := .variant [(.lit c!"a" none, 1), (.lit c!"b" none, 3)] 1 1 [] none)) 20 1 0).1.symm.trans (by
      simp only [Cmd.scale, Cmd.scaleO]; norm_num))

end Verif.Props
