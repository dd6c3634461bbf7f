import Verif.Proofs.Sound
import Verif.Spec.Demo
/-!
# C07, C08, C09: what can be produced at all
-/

namespace Verif.Props
open Verif Spec
variable {W : Type}

/-- **C07** Whatever the sampling method, the random source, the wildcards, the variables and the
number of prompts asked for: every prompt produced belongs to the language of the template. -/
theorem sampling_sound (E : Env W) (fuel : Nat) (ctx : Ctx) (p : Prompt) (k : Nat) (w : W) :
    ∀ s ∈ (samplePrompts E fuel ctx p k w).1, LangPrompt E ctx.vars p s := by
  intro s hs
  unfold samplePrompts at hs
  split at hs
  · simp at hs
  · rename_i g hg
    exact collect_good (sampleGen_GOk hg) w s hs

/-- The theorem applies to real output: a cyclical sequence of a wildcard and a variant. -/
example : (samplePrompts Demo.env 20 (Demo.ctx .cyc)
    (.inr (.seq [.wild (.inl c!"colors") none [], .lit c!" " none, Demo.oneOf [c!"a", c!"b", c!"c"]]
      [] none)) 4 0).1 = [c!"red a", c!"blue b", c!"red c", c!"blue a"] := by decide +kernel

/-- **C08** The bounds of a variant may be given in either order, and a lower bound below zero counts as
zero: the command is the same one, so every sampler does the same with it. -/
theorem bounds_normalised (opts : List (Cmd × Rat)) (lo hi : Int) (sep : Str) (m : Option Method) :
    Cmd.mkVariant opts lo hi sep m = Cmd.mkVariant opts hi lo sep m ∧
    (lo ≤ 0 → 0 ≤ hi → Cmd.mkVariant opts lo hi sep m = Cmd.mkVariant opts 0 hi sep m) ∧
    (0 ≤ lo → lo ≤ hi → Cmd.mkVariant opts lo hi sep m = .variant opts lo hi sep m) := by
  simp only [Cmd.mkVariant, normBounds]
  refine ⟨?_, fun h1 h2 => ?_, fun h1 h2 => ?_⟩
  · rw [Int.min_comm lo, Int.max_comm lo]
  · congr 1 <;> omega
  · congr 1 <;> omega

/-- Sampling does not depend on the order of the bounds: `{2-1$$a|b}`. -/
example : (samplePrompts Demo.env 20 (Demo.ctx .comb) (.inr (Cmd.mkVariant
    [(.lit c!"a" none, 1), (.lit c!"b" none, 1)] 2 1 c!"," none)) 4 0).1 =
    [c!"a", c!"b", c!"a,b", c!"b,a"] := by decide +kernel

/-- **C08** A variant of at least two options, none of which can run dry, joins a number of texts
of its options that lies within the bounds. -/
theorem variant_bounds (E : Env W) (hws : E.ignoreWs = false) (fuel : Nat) (ctx : Ctx)
    (opts : List (Cmd × Rat)) (lo hi : Int) (sep : Str) (m : Option Method) (k : Nat) (w : W)
    (h2 : 2 ≤ opts.length) (hdry : ∀ o ∈ opts, ¬ Dry E ctx.vars o.1) :
    ∀ s ∈ (samplePrompts E fuel ctx (.inr (.variant opts lo hi sep m)) k w).1,
      ∃ chosen texts, s = joined sep texts ∧ LangAll E ctx.vars chosen texts ∧
        chosen.Subperm (opts.map (·.1)) ∧
        max 0 (min (min lo hi) opts.length) ≤ (chosen.length : Int) ∧
        (chosen.length : Int) ≤ max 0 (min (max lo hi) opts.length) := by
  intro s hs
  have := sampling_sound E fuel ctx _ k w s hs
  cases this with
  | cmd _ hl =>
    rename_i s'
    rw [hws]
    simp only [Bool.false_eq_true, if_false]
    cases hl with
    | variant a1 a2 a3 a4 a5 => exact ⟨_, _, rfl, a5, a3, a4.1, a4.2⟩
    | variantSingle => simp at h2
    | variantWild => simp at h2
    | variantDry a1 a2 a3 a4 a5 a6 =>
      exfalso
      rename_i pre d post strs
      have hd : d ∈ opts.map (·.1) := a3.subset (by simp)
      obtain ⟨o, ho, rfl⟩ := List.mem_map.1 hd
      exact hdry o ho a6

/-- Literals never run dry. -/
theorem lit_not_dry (E : Env W) (vars : List (Str × Cmd)) (s : Str) (m : Option Method) :
    ¬ Dry E vars (.lit s m) := by intro h; cases h

theorem langAll_lits {E : Env W} {vars : List (Str × Cmd)} {ts : List Str} {texts : List Str} {m : Option Method}
    (h : LangAll E vars (ts.map fun t => .lit t m) texts) : texts = ts := by
  induction ts generalizing texts with
  | nil => cases h; rfl
  | cons t ts ih =>
    cases h with
    | cons h1 h2 => cases h1; rw [ih h2]

theorem subperm_lits {chosen : List Cmd} {ts : List Str}
    (h : chosen.Subperm (ts.map fun t => Cmd.lit t none)) :
    ∃ us : List Str, chosen = us.map (fun t => Cmd.lit t none) ∧ us.Subperm ts := by
  have hinj : Function.Injective (fun t => Cmd.lit t none) := by intro a b h; simpa using h
  have hsub : ∀ c ∈ chosen, ∃ t, Cmd.lit t none = c := by
    intro c hc
    obtain ⟨t, -, ht⟩ := List.mem_map.1 (h.subset hc)
    exact ⟨t, ht⟩
  have hex : ∃ us : List Str, chosen = us.map (fun t => Cmd.lit t none) := by
    clear h
    induction chosen with
    | nil => exact ⟨[], rfl⟩
    | cons c cs ih =>
      obtain ⟨t, ht⟩ := hsub c (by simp)
      obtain ⟨us, hu⟩ := ih (fun c hc => hsub c (by simp [hc]))
      exact ⟨t :: us, by simp [ht, hu]⟩
  obtain ⟨us, rfl⟩ := hex
  refine ⟨us, rfl, ?_⟩
  obtain ⟨l, hp, hs⟩ := h
  rw [List.sublist_map_iff] at hs
  obtain ⟨l', hl', rfl⟩ := hs
  exact ⟨l', (List.map_perm_map_iff hinj).1 hp, hl'⟩

/-- **C08, C09** for literal options: the prompt is the separator-join of a sub-multiset of the
option texts whose size is within the bounds. -/
theorem literal_variant_choices (E : Env W) (hws : E.ignoreWs = false) (fuel : Nat) (ctx : Ctx)
    (ts : List Str) (weight : Str → Rat) (lo hi : Int) (sep : Str) (m : Option Method) (k : Nat) (w : W)
    (h2 : 2 ≤ ts.length) :
    ∀ s ∈ (samplePrompts E fuel ctx
        (.inr (.variant (ts.map fun t => (.lit t none, weight t)) lo hi sep m)) k w).1,
      ∃ chosen : List Str, s = joined sep chosen ∧ chosen.Subperm ts ∧
        max 0 (min (min lo hi) ts.length) ≤ (chosen.length : Int) ∧
        (chosen.length : Int) ≤ max 0 (min (max lo hi) ts.length) := by
  intro s hs
  obtain ⟨chosen, texts, rfl, h3, h4, h5, h6⟩ := variant_bounds E hws fuel ctx _ lo hi sep m k w
    (by simpa using h2) (by
      intro o ho
      obtain ⟨t, -, rfl⟩ := List.mem_map.1 ho
      exact lit_not_dry _ _ _ _) s hs
  have hmap : ((ts.map fun t => ((.lit t none, weight t) : Cmd × Rat)).map (·.1)) =
      ts.map (fun t => Cmd.lit t none) := by simp
  rw [hmap] at h4
  obtain ⟨us, rfl, hu⟩ := subperm_lits h4
  have := langAll_lits h3
  subst this
  exact ⟨texts, rfl, hu, by simpa using h5, by simpa using h6⟩

example : (samplePrompts Demo.env 20 (Demo.ctx .random)
    (.inr (.variant ([c!"a", c!"b", c!"c"].map fun t => (.lit t none, 1)) 2 5 c!"-" none)) 3 0).1 =
    [c!"b-a", c!"a-c-b", c!"a-c-b"] := by decide +kernel

end Verif.Props
