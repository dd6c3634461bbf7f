import Verif.Proofs.Starving
import Verif.Props.Unending
import Verif.Props.System
/-!
# C115 Combinatorial templates that stop answering

A choice with an option without end that has only finitely many different texts gives each of them at most once (repeated texts are
skipped) and then looks for a new one for ever; the options after it, and everything a sequence would do next, are never reached.
-/

namespace Verif.Props
open Verif Verif.Spec
variable {W R S : Type}

/-- **C115.**  If `Spec.StarvingPrompt` says so, then whatever is asked for and however long one waits, there are at most `N` prompts,
each as described; and the iteration neither ends nor raises: either all that was asked for is there, or there is no answer. -/
theorem at_most (E : Env W) (vars : List (Str × Cmd)) (being : List Str) (p : Prompt) (N : Nat) (Q : Str → Prop)
    (h : StarvingPrompt E vars being p N Q) (fuel k : Nat) (w : W) :
    let r := samplePrompts E fuel ⟨.comb, vars, being⟩ p k w
    (∀ s ∈ r.1, Q s) ∧ r.1.length ≤ N ∧ (r.2 = .fuel ∨ (∃ g w', r.2 = .limit g w') ∧ r.1.length = k) := by
  obtain ⟨g, hg, hm⟩ := starvingPrompt_mute h
  simp only [samplePrompts, hg]
  exact hm.collect fuel k w

/-- **C115.**  Asking for more than `N` prompts is never answered. -/
theorem never_answered (E : Env W) (vars : List (Str × Cmd)) (being : List Str) (p : Prompt) (N : Nat) (Q : Str → Prop)
    (h : StarvingPrompt E vars being p N Q) (k : Nat) (hk : N < k) (w : W) (fuel : Nat) :
    (samplePrompts E fuel ⟨.comb, vars, being⟩ p k w).2 = .fuel := by
  obtain ⟨-, h1, h2 | ⟨-, h2⟩⟩ := at_most E vars being p N Q h fuel k w
  · exact h2
  · omega

/-- **C115.**  Such a template neither lists its texts (C51) nor goes on without end (C114). -/
theorem starving_is_neither [Inhabited W] (E : Env W) (vars : List (Str × Cmd)) (being : List Str) (p : Prompt) (N : Nat) (Q : Str → Prop)
    (h : StarvingPrompt E vars being p N Q) : (∀ outs, ¬ ListsPrompt E vars being p outs) ∧ ∀ P, ¬ NeverEndsPrompt E vars being p P := by
  refine ⟨fun outs hl => ?_, fun P hp => ?_⟩
  · obtain ⟨M, hM⟩ := combinatorial_lists E vars being p outs hl default
    obtain ⟨-, h1⟩ := hM M (le_refl _) (max (N + 1) (outs.length + 1))
    have h2 := never_answered E vars being p N Q h (max (N + 1) (outs.length + 1)) (by omega) default M
    rw [h2] at h1
    have h3 := h1 (by omega)
    simp at h3
  · obtain ⟨_, -, -, M, hM⟩ := never_ends E vars being p P hp (N + 1) default
    obtain ⟨-, g, w', h1⟩ := hM M (le_refl _)
    rw [never_answered E vars being p N Q h (N + 1) (by omega) default M] at h1
    cases h1

/-! ### From files -/

/-- **C114.**  With wildcards from files, after any history of the manager: what the files say decides whether a template is without
end. -/
theorem never_ends_files (c : SysCfg R S) (past : Sys R S) (ops : List (SysOp R S)) (hoff : past.mgr.shuffle = false)
    (hq : ∀ op ∈ ops, Quiet op) :
    let s := runSys c ops { past with mgr := Mgr.clearCache past.mgr }
    ∀ shelf, OnShelf c.mgr s.mgr.fs s.mgr.sort s.mgr.dedup shelf →
    ∀ (vars : List (Str × Cmd)) (being : List Str) (p : Prompt) (P : Nat → Str → Prop),
      NeverEndsPrompt (withShelf c shelf) vars being p P → ∀ k, ∃ outs : List Str, outs.length = k ∧
        (∀ i t, outs[i]? = some t → P i t) ∧ ∃ N, ∀ fuel ≥ N,
          (samplePrompts (system c) fuel ⟨.comb, vars, being⟩ p k s).1 = outs ∧
          ∃ g s', (samplePrompts (system c) fuel ⟨.comb, vars, being⟩ p k s).2 = .limit g s' ∧ s'.mgr.fs = s.mgr.fs := by
  intro s shelf hs vars being p P h k
  obtain ⟨outs, h1, h2, N, hN⟩ := never_ends (withShelf c shelf) vars being p P h k s.rand
  refine ⟨outs, h1, h2, N, fun fuel hf => ?_⟩
  obtain ⟨h3, g, r, h4⟩ := hN fuel hf
  obtain ⟨e1, e2⟩ := files_decide_prompts c past ops hoff hq shelf hs fuel ⟨.comb, vars, being⟩ p k
  refine ⟨e1.trans h3, ?_⟩
  change SameStop _ (samplePrompts (system c) fuel _ p k s).2 (samplePrompts (withShelf c shelf) fuel _ p k s.rand).2 at e2
  rw [h4] at e2
  cases hx : (samplePrompts (system c) fuel ⟨.comb, vars, being⟩ p k s).2 with
  | limit g' s' => rw [hx] at e2; exact ⟨g', s', rfl, e2.2.2⟩
  | stop => rw [hx] at e2; exact e2.elim
  | raised => rw [hx] at e2; exact e2.elim
  | fuel => rw [hx] at e2; exact e2.elim

/-- **C115.**  The same for templates that stop answering. -/
theorem never_answered_files (c : SysCfg R S) (past : Sys R S) (ops : List (SysOp R S)) (hoff : past.mgr.shuffle = false)
    (hq : ∀ op ∈ ops, Quiet op) :
    let s := runSys c ops { past with mgr := Mgr.clearCache past.mgr }
    ∀ shelf, OnShelf c.mgr s.mgr.fs s.mgr.sort s.mgr.dedup shelf →
    ∀ (vars : List (Str × Cmd)) (being : List Str) (p : Prompt) (N : Nat) (Q : Str → Prop),
      StarvingPrompt (withShelf c shelf) vars being p N Q → ∀ k fuel,
        (∀ t ∈ (samplePrompts (system c) fuel ⟨.comb, vars, being⟩ p k s).1, Q t) ∧
        (N < k → (samplePrompts (system c) fuel ⟨.comb, vars, being⟩ p k s).2 = .fuel) := by
  intro s shelf hs vars being p N Q h k fuel
  obtain ⟨e1, e2⟩ := files_decide_prompts c past ops hoff hq shelf hs fuel ⟨.comb, vars, being⟩ p k
  refine ⟨fun t ht => ?_, fun hk => ?_⟩
  · rw [e1] at ht
    exact (at_most (withShelf c shelf) vars being p N Q h fuel k s.rand).1 t ht
  · change SameStop _ (samplePrompts (system c) fuel _ p k s).2 (samplePrompts (withShelf c shelf) fuel _ p k s.rand).2 at e2
    rw [never_answered (withShelf c shelf) vars being p N Q h k hk s.rand fuel] at e2
    cases hx : (samplePrompts (system c) fuel ⟨.comb, vars, being⟩ p k s).2 with
    | limit => rw [hx] at e2; exact e2.elim
    | stop => rw [hx] at e2; exact e2.elim
    | raised => rw [hx] at e2; exact e2.elim
    | fuel => rfl

/-! ### Examples -/

/-- The options `b` and `z` are never reached, and the third prompt never comes. -/
theorem starved : ∃ Q, StarvingPrompt genEnv [] [] (.inl c!"${x={@c|d}}{a|b} {${x}|z}") 2 Q ∧
    ∀ s, Q s → s = c!"a c" ∨ s = c!"a d" := by
  have hlit : ∀ (s : Str) vars being, Lists genEnv vars being (.lit s none) [s] := fun s vars being => .lit (.inl rfl)
  have hab : Lists genEnv ([(c!"x", cdAround)] ++ []) [] ab
      (variantTexts [(.lit c!"a" none, 1), (.lit c!"b" none, 1)] 1 1 c!"," fun c => match c with | .lit s _ => [s] | _ => []) := by
    refine .variant _ (.inl rfl) (by rintro ⟨p, m, v, w, h⟩; simp at h) (by simp) ?_
    intro p hp
    simp at hp
    rcases hp with rfl | rfl <;> exact hlit _ _ _
  have hc : Cycles genEnv ([(c!"x", cdAround)] ++ []) [c!"x"] cdAround _ :=
    .variant (fun c _ => match c with | .lit s _ => s | _ => []) (by simp) (by rintro ⟨p, m, v, w, h⟩; simp at h)
      (by decide +kernel) (by simp) (by
        intro p hp
        simp at hp
        rcases hp with rfl | rfl <;> exact .lit (by simp))
  have hT : ∀ n : Nat, joined c!"," ((variantSelections [(.lit c!"c" none, 1), (.lit c!"d" none, 1)] 1 1).getD (n % 2) [] |>.map
      fun c => match c with | .lit s _ => s | _ => []) ∈ [c!"c", c!"d"] := by
    intro n
    have : n % 2 < 2 := Nat.mod_lt _ (by decide)
    generalize n % 2 = r at this ⊢
    interval_cases r <;> decide +kernel
  refine ⟨_, .text (c := .seq [.assign c!"x" cdAround false true, ab, .lit c!" " none,
      .variant [(.access c!"x" none, 1), (.lit c!"z" none, 1)] 1 1 c!"," none] [] none) (by decide) (by decide +kernel)
    (.seq (before := [ab, .lit c!" " none]) (x := .variant [(.access c!"x" none, 1), (.lit c!"z" none, 1)] 1 1 c!"," none)
      (after := []) (as := [c!"a", c!" "]) (N := 2) (.inl rfl)
      (.plain (.inl rfl) (.tok (by simp) (.tok (by simp) (.tok (by simp) .nil))))
      (.cons hab (by decide +kernel) (.cons (hlit _ _ _) (by simp) .nil))
      (.cons (by decide +kernel) (.cons rfl .nil)) (.inl rfl)
      (.variant (before := []) (x := .access c!"x" none) (after := [(.lit c!"z" none, 1)]) (fun _ => []) [c!"c", c!"d"] (.inl rfl)
        (by rintro ⟨p, m, v, w, h⟩; simp at h) (by simp) (.inl rfl) (.access (.var rfl rfl) (by simp) (.cyclical rfl hc)) ?_)
      .nil), ?_⟩
  · rintro n s rfl
    unfold roundRobin
    rw [show (variantSelections [(.lit c!"c" none, 1), (.lit c!"d" none, 1)] 1 1).length = 2 by decide +kernel]
    exact hT n
  · rintro s ⟨u, ⟨y, z, hy, hz, rfl⟩, rfl⟩
    simp [product] at hy hz
    subst hz
    rcases hy with rfl | rfl
    · left; decide +kernel
    · right; decide +kernel

example : (samplePrompts genEnv 60 ⟨.comb, [], []⟩ (.inl c!"${x={@c|d}}{a|b} {${x}|z}") 2 0).1 = [c!"a c", c!"a d"] := by
  decide +kernel

/-- No wildcard has values. -/
def lostEnv : Env Nat := { genEnv with getValues := fun _ => pure [] }

/-- A wildcard without values as an option: its name is the only prompt. -/
theorem lost_option : ∃ Q, StarvingPrompt lostEnv [] [] (.inl c!"{__w__|a}") 1 Q ∧ ∀ s, Q s → s = c!"__w__" := by
  refine ⟨_, .text (c := .variant [(.wild (.inl c!"w") none [], 1), (.lit c!"a" none, 1)] 1 1 c!"," none) (by decide) (by decide +kernel)
    (.variant (before := []) (x := .wild (.inl c!"w") none []) (after := [(.lit c!"a" none, 1)]) (fun _ => []) [c!"__w__"] (.inl rfl)
      (by rintro ⟨p, m, v, w, h⟩; simp at h) (by simp) (.inl rfl)
      (.missing (p := c!"w") (ps := []) (.inl rfl) (.text (c := .lit c!"w" none) (by decide) (by decide +kernel) (.lit (.inl rfl)))
        fun w => ⟨w, rfl⟩) ?_), ?_⟩
  · rintro n s rfl
    decide +kernel
  · rintro s ⟨u, hu, rfl⟩
    simp at hu
    subst hu
    decide +kernel

/-- In a sequence, the same wildcard keeps everything before it at its first text. -/
example : ∃ P, NeverEndsPrompt lostEnv [] [] (.inl c!"{a|b} __w__") P ∧ ∀ n s, P n s → s = c!"a __w__" := by
  have hlit : ∀ (s : Str) vars being, Lists lostEnv vars being (.lit s none) [s] := fun s vars being => .lit (.inl rfl)
  have hab : Lists lostEnv ([] ++ []) [] ab
      (variantTexts [(.lit c!"a" none, 1), (.lit c!"b" none, 1)] 1 1 c!"," fun c => match c with | .lit s _ => [s] | _ => []) := by
    refine .variant _ (.inl rfl) (by rintro ⟨p, m, v, w, h⟩; simp at h) (by simp) ?_
    intro p hp
    simp at hp
    rcases hp with rfl | rfl <;> exact hlit _ _ _
  refine ⟨_, .text (c := .seq [ab, .lit c!" " none, .wild (.inl c!"w") none []] [] none) (by decide) (by decide +kernel)
    (.seq (before := [ab, .lit c!" " none]) (x := .wild (.inl c!"w") none []) (after := []) (as := [c!"a", c!" "]) (.inl rfl)
      (.tok (by simp) (.tok (by simp) (.tok (by simp) .nil)))
      (.cons hab (by decide +kernel) (.cons (hlit _ _ _) (by simp) .nil)) (.cons (by decide +kernel) (.cons rfl .nil)) (.inl rfl)
      (.missing (p := c!"w") (ps := []) (.inl rfl) (.text (c := .lit c!"w" none) (by decide) (by decide +kernel) (.lit (.inl rfl)))
        fun w => ⟨w, rfl⟩) .nil (by simp [product])), ?_⟩
  rintro n s ⟨u, ⟨y, rfl, rfl⟩, rfl⟩
  simp only [product, List.length_singleton, Nat.mod_one]
  decide +kernel

example : (samplePrompts lostEnv 60 ⟨.comb, [], []⟩ (.inl c!"{__w__|a}") 1 0).1 = [c!"__w__"] ∧
    (samplePrompts lostEnv 60 ⟨.comb, [], []⟩ (.inl c!"{a|b} __w__") 3 0).1 = [c!"a __w__", c!"a __w__", c!"a __w__"] := by
  decide +kernel

/-- The wildcard `v` has three values, one of which stops answering; no other wildcard has values. -/
def nestEnv : Env Nat := { genEnv with
  getValues := fun p => pure (if p = c!"v" then [⟨c!"r", none⟩, ⟨c!"{__w__|a}", none⟩, ⟨c!"s", none⟩] else []) }

/-- `{__w__|a}` -/
def lostOption : Cmd := .variant [(.wild (.inl c!"w") none [], 1), (.lit c!"a" none, 1)] 1 1 c!"," none

theorem lostOption_starving (vars : List (Str × Cmd)) (being : List Str) : ∃ Q, Starving nestEnv vars being lostOption 1 Q ∧
    ∀ s, Q s → s = c!"__w__" := by
  refine ⟨_, .variant (before := []) (x := .wild (.inl c!"w") none []) (after := [(.lit c!"a" none, 1)]) (fun _ => []) [c!"__w__"] (.inl rfl)
      (by rintro ⟨p, m, v, w, h⟩; simp at h) (by simp) (.inl rfl)
      (.missing (p := c!"w") (ps := []) (.inl rfl) (.text (c := .lit c!"w" none) (by decide) (by decide +kernel) (.lit (.inl rfl)))
        fun w => ⟨w, rfl⟩) ?_, ?_⟩
  · rintro n s rfl
    decide +kernel
  · intro s hs
    simpa using hs

/-- The same inside a choice, as a value of a wildcard, and inside a wrap: what comes after it is never reached. -/
theorem nested_starved :
    (∃ Q, StarvingPrompt nestEnv [] [] (.inl c!"{b|{__w__|a}|c}") 2 Q ∧ ∀ s, Q s → s = c!"b" ∨ s = c!"__w__") ∧
    (∃ Q, StarvingPrompt nestEnv [] [] (.inl c!"__v__") 2 Q ∧ ∀ s, Q s → s = c!"r" ∨ s = c!"__w__") ∧
    ∃ Q, StarvingPrompt nestEnv [] [] (.inl c!"%{(...)$${__w__|a}}") 1 Q ∧ ∀ s, Q s → s = c!"(__w__)" := by
  have hlit : ∀ (s : Str) vars being, Lists nestEnv vars being (.lit s none) [s] := fun s vars being => .lit (.inl rfl)
  refine ⟨?_, ?_, ?_⟩
  · obtain ⟨Q, hQ, hs⟩ := lostOption_starving [] []
    refine ⟨_, .text (c := .variant [(.lit c!"b" none, 1), (lostOption, 1), (.lit c!"c" none, 1)] 1 1 c!"," none) (by decide)
      (by decide +kernel) (.option (before := [(.lit c!"b" none, 1)]) (x := lostOption) (after := [(.lit c!"c" none, 1)]) (N := 1)
        (fun _ => [c!"b"]) (.inl rfl) (by rintro ⟨p, m, v, w, h⟩; simp at h) ?_ (.inl rfl) hQ), ?_⟩
    · intro p hp
      simp at hp
      subst hp
      exact hlit _ _ _
    · rintro s ⟨u, hu | hu, e⟩
      · simp at hu
        rw [e, hu]
        exact .inl (by decide +kernel)
      · rw [e, hs u hu]
        exact .inr (by decide +kernel)
  · obtain ⟨Q, hQ, hs⟩ := lostOption_starving ([] ++ []) []
    refine ⟨_, .text (c := .wild (.inl c!"v") none []) (by decide) (by decide +kernel)
      (.wild (p := c!"v") (ps := []) (items := [⟨c!"r", none⟩, ⟨c!"{__w__|a}", none⟩, ⟨c!"s", none⟩])
        (before := [c!"r"]) (x := c!"{__w__|a}") (after := [c!"s"]) (N := 1) (fun _ => [c!"r"]) (.inl rfl)
        (.text (c := .lit c!"v" none) (by decide) (by decide +kernel) (.lit (.inl rfl))) (fun w => ⟨w, rfl⟩)
        (by decide +kernel) ?_ (.text (c := lostOption) (by decide) (by decide +kernel) hQ)), ?_⟩
    · intro y hy
      simp at hy
      subst hy
      exact .text (c := .lit c!"r" none) (by decide) (by decide +kernel) (hlit _ _ _)
    · rintro s ⟨u, hu | ⟨u', hu, e'⟩, e⟩
      · simp at hu
        rw [e, hu]
        exact .inl (by decide +kernel)
      · rw [e, e', hs u' hu]
        exact .inr (by decide +kernel)
  · obtain ⟨Q, hQ, hs⟩ := lostOption_starving [] []
    refine ⟨_, .text (c := .wrap (.lit c!"(...)" none) lostOption none) (by decide) (by decide +kernel)
      (.inside (x := c!"(...)") (xs := []) (.inl rfl) (.cmd (by decide) (hlit _ _ _)) (.cmd (by decide) hQ)), ?_⟩
    rintro s ⟨u, ⟨y, ⟨z, hz, e2⟩, e1⟩, e⟩
    rw [e, e1, e2, hs z hz]
    decide +kernel

example : (samplePrompts nestEnv 100 ⟨.comb, [], []⟩ (.inl c!"{b|{__w__|a}|c}") 3 0).1 = [c!"b", c!"__w__"] ∧
    (samplePrompts nestEnv 100 ⟨.comb, [], []⟩ (.inl c!"__v__") 3 0).1 = [c!"r", c!"__w__"] ∧
    (samplePrompts nestEnv 100 ⟨.comb, [], []⟩ (.inl c!"%{(...)$${__w__|a}}") 3 0).1 = [c!"(__w__)"] := by decide +kernel

end Verif.Props
