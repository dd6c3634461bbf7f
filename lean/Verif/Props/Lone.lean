import Verif.Proofs.Lone
import Verif.Props.Laws
/-!
# C110 A wildcard alone in braces
-/

namespace Verif.Props
open Verif Verif.Spec
variable {W : Type} {E : Env W}

/-- **C110.**  In every context (sampling method, variables), a template that is a wildcard alone in braces behaves like the choice of
the wildcard's values, written out: asked for one or more prompts, both give the same prompts and end in the same way, with the same
exception, in the same state of the world, or never. -/
theorem lone_wildcard {name : Str} {lo hi : Int} {sep : Str} {m m' : Option Method} {v : List (Str × Cmd)} {wt : Rat} {c : Cmd}
    (hn : PlainName E name) (hw : ChoiceOfValues E name lo hi sep m c) (hc : c.truthy = true) {p p' : Prompt}
    (hp : p = .inr (.variant [(.wild (.inl name) m' v, wt)] lo hi sep m) ∨
      ∃ t, p = .inl t ∧ t ≠ [] ∧ E.parse t = .ok (.variant [(.wild (.inl name) m' v, wt)] lo hi sep m))
    (hp' : p' = .inr c ∨ ∃ t, p' = .inl t ∧ t ≠ [] ∧ E.parse t = .ok c) (ctx : Ctx) (k : Nat) (w : W) :
    ∃ N, ∀ n, N ≤ n → samplePrompts E n ctx p (k + 1) w = samplePrompts E n ctx p' (k + 1) w := by
  have key : ∀ {d : Cmd} {q : Prompt}, d.truthy = true → (q = .inr d ∨ ∃ t, q = .inl t ∧ t ≠ [] ∧ E.parse t = .ok d) →
      sampleGen E ctx q = sampleGen E ctx (.inr d) := by
    rintro d q hd (rfl | ⟨t, rfl, ht, hq⟩)
    · rfl
    · have : t.isEmpty = false := by
        cases t with
        | nil => exact absurd rfl ht
        | cons => rfl
      simp only [sampleGen, this, hq, hd, Bool.not_true]
  unfold samplePrompts
  rw [key rfl hp, key hc hp']
  cases hw with
  | @mk items cs hg hq =>
    have h := fun ctx => lone_same (m' := m') (v := v) (wt := wt) hn (.mk hg hq : ChoiceOfValues E name lo hi sep m _) ctx
    have hg1 : ∀ {opts lo hi}, mkGen E.unknown ctx (.variant opts lo hi sep m) =
      .ok (.start (ctx.withMethod (effMethod ctx.method m)) (.variant opts lo hi sep m)) := fun {_ _ _} => rfl
    simp only [sampleGen, hc, hg1, Bool.not_true]
    simp only [show (Cmd.variant [(Cmd.wild (.inl name) m' v, wt)] lo hi sep m).truthy = true from rfl, Bool.not_true]
    by_cases hi : E.ignoreWs
    · simp only [hi]
      exact collect_same (squash_same (h _)) k w
    · simp only [hi]
      exact collect_same (h _) k w

/-- **C110.**  The weight of a wildcard alone in braces, its own sampling method and its parameters are not used, however its name is
written. -/
theorem lone_wildcard_ignores (path : Prompt) (m₁ m₂ : Option Method) (v₁ v₂ : List (Str × Cmd)) (x₁ x₂ : Rat) (lo hi : Int) (sep : Str)
    (m : Option Method) (ctx : Ctx) (k : Nat) (w : W) : ∃ N, ∀ n, N ≤ n →
      samplePrompts E n ctx (.inr (.variant [(.wild path m₁ v₁, x₁)] lo hi sep m)) (k + 1) w =
        samplePrompts E n ctx (.inr (.variant [(.wild path m₂ v₂, x₂)] lo hi sep m)) (k + 1) w := by
  unfold samplePrompts
  have hg1 : ∀ {opts}, mkGen E.unknown ctx (.variant opts lo hi sep m) =
    .ok (.start (ctx.withMethod (effMethod ctx.method m)) (.variant opts lo hi sep m)) := fun {_} => rfl
  have h : ∀ ctx, (lim E).G (.start ctx (.variant [(.wild path m₁ v₁, x₁)] lo hi sep m)) =
      (lim E).G (.start ctx (.variant [(.wild path m₂ v₂, x₂)] lo hi sep m)) := fun ctx => by rw [lone_step, lone_step]
  simp only [sampleGen, hg1]
  simp only [show ∀ q, (Cmd.variant [q] lo hi sep m).truthy = true from fun _ => rfl, Bool.not_true]
  by_cases hi : E.ignoreWs
  · simp only [hi]
    exact collect_same (squash_same (h _)) k w
  · simp only [hi]
    exact collect_same (h _) k w

/-- **C110.**  If none of the values remains, because the wildcard is not found or because all its weights are below one, there is nothing
to choose from: with every sampling method there is no prompt at all and no exception, and nothing is drawn.  Without the braces, a
wildcard that is not found is echoed (C39). -/
theorem lone_wildcard_empty {name : Str} {lo hi : Int} {sep : Str} {m m' : Option Method} {v : List (Str × Cmd)} {wt : Rat}
    {items : List Item} (hn : PlainName E name) (hg : Spec.Gives E name items) (h0 : iterateWeighted items = []) {p : Prompt}
    (hp : p = .inr (.variant [(.wild (.inl name) m' v, wt)] lo hi sep m) ∨
      ∃ t, p = .inl t ∧ t ≠ [] ∧ E.parse t = .ok (.variant [(.wild (.inl name) m' v, wt)] lo hi sep m)) (ctx : Ctx) (k : Nat) (w : W) :
    ∃ N, ∀ n, N ≤ n → samplePrompts E n ctx p (k + 1) w = ([], .stop w) := by
  have key : sampleGen E ctx p = sampleGen E ctx (.inr (.variant [(.wild (.inl name) m' v, wt)] lo hi sep m)) := by
    rcases hp with rfl | ⟨t, rfl, ht, hq⟩
    · rfl
    · have : t.isEmpty = false := by
        cases t with
        | nil => exact absurd rfl ht
        | cons => rfl
      simp only [sampleGen, this, hq]
      rfl
  have hq : ParsesAll E (iterateWeighted items) [] := by rw [h0]; exact .nil
  have h : ∀ ctx, (lim E).G (.start ctx (.variant [(.wild (.inl name) m' v, wt)] lo hi sep m)) = (lim E).G .done := fun ctx => by
    rw [lone_same hn (.mk hg hq) ctx, lim_G]
    rfl
  have hd : (lim E).G .done = pure none := by rw [lim_G]; rfl
  have fin : ∀ g, (lim E).G g = (lim E).G .done → ∃ N, ∀ n, N ≤ n → collect E n (k + 1) g w = ([], .stop w) := by
    intro g hgd
    refine (collect_conv (E := E) (k + 1) g w).mp fun n h1 => ?_
    rw [h1]
    simp only [collectLim, hgd, hd]
    rfl
  unfold samplePrompts
  rw [key]
  have hg1 : ∀ {opts}, mkGen E.unknown ctx (.variant opts lo hi sep m) =
    .ok (.start (ctx.withMethod (effMethod ctx.method m)) (.variant opts lo hi sep m)) := fun {_} => rfl
  simp only [sampleGen, hg1]
  simp only [show ∀ q, (Cmd.variant [q] lo hi sep m).truthy = true from fun _ => rfl, Bool.not_true]
  by_cases hi : E.ignoreWs
  · simp only [hi]
    refine fin (.squash _) ?_
    rw [squash_same (h _), lim_G, hd]
    simp only [stepG, hd]
    rfl
  · simp only [hi]
    exact fin _ (h _)

/-- **C110.**  At any depth of a template: sampled combinatorially, the template has the same prompts in the same order. -/
theorem lone_keep_prompts {vars : List (Str × Cmd)} {being : List Str} {p p' : Prompt} {outs : List Str}
    (h : WithinPrompt E (LoneWild E) p p') (hp : ListsPrompt E vars being p outs) (w w' : W) : ∃ N, ∀ n, N ≤ n → ∀ k,
      (samplePrompts E n ⟨.comb, vars, being⟩ p' k w').1 = (samplePrompts E n ⟨.comb, vars, being⟩ p k w).1 ∧
      (samplePrompts E n ⟨.comb, vars, being⟩ p k w).1 = outs.take k :=
  have : Inhabited W := ⟨w⟩
  lone_keeps.prompts h hp w w'

/-- **C110**, in terms of the lists of prompts. -/
theorem lone_keep_list [Inhabited W] {vars : List (Str × Cmd)} {being : List Str} {p p' : Prompt} {outs : List Str}
    (h : WithinPrompt E (LoneWild E) p p') (hp : ListsPrompt E vars being p outs) : ListsPrompt E vars being p' outs :=
  lone_keeps.listsPrompt h hp

/-- **C110.**  At any depth of a template: sampled at random, every text is as likely as before. -/
theorem lone_keep_chances [Inhabited W] {vars : List (Str × Cmd)} {being : List Str} {p p' : Prompt} {P : Distr Str}
    (h : WithinPrompt E (LoneWild E) p p') (hP : ChancePrompt E vars being p P) :
    ∃ P', ChancePrompt E vars being p' P' ∧ ∀ s, P'.of s = P.of s := lone_keeps.chances h hP

/-- **C110**, in terms of probabilities. -/
theorem lone_keep_probabilities [Inhabited W] (hA : E.rng.arith = .exact) {vars : List (Str × Cmd)} {being : List Str} {p p' : Prompt}
    {P : Distr Str} (h : WithinPrompt E (LoneWild E) p p') (hP : ChancePrompt E vars being p P)
    (pr : (W → Prop) → ℝ) (hf : Fair E.rng pr) (s : Str) :
    pr (Samples E vars being p' [s]) = pr (Samples E vars being p [s]) := lone_keeps.probabilities hA h hP pr hf s

/-! ### Cases -/

/-- `colors` has two lines, one of weight 2. -/
def loneEnv : Env Nat :=
  { genEnv with getValues := fun s => pure (if s = c!"colors" then [⟨c!"red", some 2⟩, ⟨c!"blue", none⟩] else []) }

theorem colors_name : PlainName loneEnv c!"colors" := ⟨by decide, by decide +kernel, by decide +kernel⟩

theorem colors_written : ChoiceOfValues loneEnv c!"colors" 2 3 c!"-" none
    (.variant [(.lit c!"red" none, 1), (.lit c!"red" none, 1), (.lit c!"blue" none, 1)] 2 2 c!"-" none) :=
  .mk (items := [⟨c!"red", some 2⟩, ⟨c!"blue", none⟩]) (cs := [.lit c!"red" none, .lit c!"red" none, .lit c!"blue" none])
    (fun _ => rfl)
    (by
      rw [show iterateWeighted [⟨c!"red", some 2⟩, ⟨c!"blue", none⟩] = [c!"red", c!"red", c!"blue"] by decide +kernel]
      exact .cons (by decide +kernel) (.cons (by decide +kernel) (.cons (by decide +kernel) .nil)))

/-- `{2-3$$-$$7::__@colors(size={S|M})__}` is `{2$$-$$red|red|blue}`: two colours, since the wildcard has two lines. -/
example (ctx : Ctx) (k w : Nat) : ∃ N, ∀ n, N ≤ n →
    samplePrompts loneEnv n ctx (.inl c!"{2-3$$-$$7::__@colors(size={S|M})__}") (k + 1) w =
      samplePrompts loneEnv n ctx (.inl c!"{2$$-$$red|red|blue}") (k + 1) w :=
  lone_wildcard (m' := some .cyc) (v := [(c!"size", .variant [(.lit c!"S" none, 1), (.lit c!"M" none, 1)] 1 1 c!"," none)]) (wt := 7)
    colors_name colors_written rfl
    (.inr ⟨_, rfl, by decide, by decide +kernel⟩) (.inr ⟨_, rfl, by decide, by decide +kernel⟩) ctx k w

/-- `{2$$__missing__}` has no prompts, and in a sequence it is a `RuntimeError`. -/
example (ctx : Ctx) (k w : Nat) : ∃ N, ∀ n, N ≤ n → samplePrompts loneEnv n ctx (.inl c!"{2$$__missing__}") (k + 1) w = ([], .stop w) :=
  lone_wildcard_empty (name := c!"missing") (lo := 2) (hi := 2) (sep := c!",") (m := none) (items := []) (m' := none) (v := []) (wt := 1) ⟨by decide, by decide +kernel, by decide +kernel⟩ (fun _ => rfl) rfl
    (.inr ⟨_, rfl, by decide, by decide +kernel⟩) ctx k w

example : (samplePrompts loneEnv 40 ⟨.random, [], []⟩ (.inl c!"a {2$$__missing__}") 1 0).1 = [] ∧
    (match (samplePrompts loneEnv 40 ⟨.random, [], []⟩ (.inl c!"a {2$$__missing__}") 1 0).2 with
      | .raised .runtime _ => true | _ => false) = true ∧
    (samplePrompts loneEnv 40 ⟨.random, [], []⟩ (.inl c!"a __missing__") 1 0).1 = [c!"a __missing__"] := by decide +kernel

/-- Inside a template. -/
theorem colors_unfolded : WithinPrompt loneEnv (LoneWild loneEnv) (.inl c!"a {2-3$$-$$__colors__}") (.inl c!"a {2$$-$$red|red|blue}") :=
  .text (c := .seq [.lit c!"a " none, .variant [(.wild (.inl c!"colors") none [], 1)] 2 3 c!"-" none] [] none)
    (c' := .seq [.lit c!"a " none,
      .variant [(.lit c!"red" none, 1), (.lit c!"red" none, 1), (.lit c!"blue" none, 1)] 2 2 c!"-" none] [] none)
    (by decide) (by decide) (by decide +kernel) (by decide +kernel)
    (.seq (.cons .same (.cons (.law (.unfold colors_name colors_written rfl)) .nil)))

end Verif.Props
