import Verif.Props.Counting
import Verif.Props.System
/-!
# Combinatorial sampling of templates with wildcards and variables (C66)
-/

namespace Verif.Props
open Verif Verif.Spec
variable {W R S : Type}

/-- **C66.**  A prompt stands for one list of texts. -/
theorem lists_unique [Inhabited W] (E : Env W) (vars : List (Str × Cmd)) (being : List Str) (p : Prompt)
    (outs outs' : List Str) (h : ListsPrompt E vars being p outs) (h' : ListsPrompt E vars being p outs') :
    outs = outs' := by
  obtain ⟨N, hN⟩ := combinatorial_lists E vars being p outs h default
  obtain ⟨N', hN'⟩ := combinatorial_lists E vars being p outs' h' default
  have h1 := (hN (max N N') (by omega) (max outs.length outs'.length)).1
  have h2 := (hN' (max N N') (by omega) (max outs.length outs'.length)).1
  rw [h1, List.take_of_length_le (by omega), List.take_of_length_le (by omega)] at h2
  exact h2

/-- **C66.**  Templates without wildcards and variables stand for the list given in C01. -/
theorem plain_lists (E : Env W) (vars : List (Str × Cmd)) (being : List Str) (c : Cmd)
    (h : Spec.Plain E.ignoreWs c) : Lists E vars being c (enum E.ignoreWs c) := by
  have wrapped : ∀ d, Lists E vars being d (enum E.ignoreWs d) →
      ListsPrompt E vars being (.inr d) ((unlessEmpty d (enum E.ignoreWs d)).map (squashIf E.ignoreWs)) := by
    intro d hd
    unfold unlessEmpty
    split
    · exact .cmd (by assumption) hd
    · exact .empty (by simpa using ‹¬ d.truthy = true›)
  induction h with
  | lit hf => rw [enum]; exact .lit hf
  | @seq toks sep m hf hp hne ih =>
    rw [enum, enumL_eq]
    refine .seq (new := []) (toks' := toks) hf ?_ ?_
    · clear ih hne
      induction toks with
      | nil => exact .nil
      | cons c cs ih =>
        refine .tok ?_ (ih fun c hc => hp c (by simp [hc]))
        rintro n v i o rfl
        cases hp _ (List.mem_cons_self ..)
    · clear hp
      induction toks with
      | nil => exact .nil
      | cons c cs ih' =>
        refine .cons (ih c (by simp)) (fun h => hne c (by simp) (by simp [h])) (ih' ?_ ?_)
        · exact fun c hc => hne c (by simp [hc])
        · exact fun c hc => ih c (by simp [hc])
  | @variant opts lo hi sep m hf hp ih =>
    rw [enum]
    by_cases ho : opts = []
    · subst ho
      rw [if_pos (by simp)]
      exact .empty hf
    rw [if_neg (by simpa using ho)]
    have hinj : Function.Injective (fun c : Cmd => (c, enum E.ignoreWs c)) := by
      intro a b h; exact (Prod.mk.inj h).1
    have e : (((sizes opts.length lo hi).flatMap fun k => selections k (enumO E.ignoreWs opts)).flatMap
          fun sel => product (sel.map (·.2))) =
        (((sizes opts.length lo hi).flatMap fun k => selections k (opts.map (·.1))).flatMap
          fun sel => product (sel.map (enum E.ignoreWs))) := by
      rw [enumO_eq]
      simp only [selections_map _ hinj]
      simp only [List.flatMap_assoc, List.flatMap_map, List.map_map, Function.comp_def]
    rw [e]
    refine Lists.variant (enum E.ignoreWs) hf ?_ ho ih
    rintro ⟨p, m', v, wt, rfl⟩
    cases hp _ (List.mem_cons_self ..)
  | @wrap wr i m hf hw hi ihw ihi =>
    have := Lists.wrap (m := m) hf (wrapped _ ihw) (wrapped _ ihi)
    rw [enum]
    simpa [List.flatMap_map, Function.comp_def] using this

/-- **C66.**  From text and files to the complete list of prompts: let anything have happened to the manager before
its cache was cleared, and since then no file changed and nothing was shuffled.  If the template, with the files' values
for its wildcards, stands for `outs`, then combinatorial sampling of its text gives exactly `outs`, in order. -/
theorem combinatorial_lists_files (c : SysCfg R S) (M : Marks) (al : Char → Bool)
    (hM : M.usable al = true) (hc : c.parser = .of M al)
    (past : Sys R S) (ops : List (SysOp R S)) (hoff : past.mgr.shuffle = false) (hq : ∀ op ∈ ops, Quiet op) :
    let s := runSys c ops { past with mgr := Mgr.clearCache past.mgr }
    ∀ shelf, OnShelf c.mgr s.mgr.fs s.mgr.sort s.mgr.dedup shelf →
    ∀ (ps : List Piece), Spec.ok .top ps M = true → '\t' ∉ source ps M →
      source ps M ≠ [] →
    ∀ (ctx : Ctx) (outs : List Str), ctx.method = .comb →
      Lists (withShelf c shelf) ctx.vars ctx.being (meaning ps) outs →
      ∃ N, ∀ fuel ≥ N, ∀ k,
        (samplePrompts (system c) fuel ctx (.inl (source ps M)) k s).1 =
          (outs.map (squashIf c.ignoreWs)).take k ∧
        (outs.length < k → ∃ s', (samplePrompts (system c) fuel ctx (.inl (source ps M)) k s).2 = .stop s') := by
  intro s shelf hs ps hok ht hne ctx outs hm hl
  have hp : (withShelf c shelf).parse (source ps M) = .ok (meaning ps) := by
    show parse c.parser (source ps M) = _
    rw [hc]
    exact parse_source_marks M al hM ps hok ht
  obtain ⟨m, vars, being⟩ := ctx
  obtain rfl : m = .comb := hm
  obtain ⟨N, hN⟩ := combinatorial_lists (withShelf c shelf) vars being _ _ (.text hne hp hl) s.rand
  refine ⟨N, fun fuel hf k => ?_⟩
  obtain ⟨e1, e2⟩ := files_decide_prompts c past ops hoff hq shelf hs fuel ⟨.comb, vars, being⟩ (.inl (source ps M)) k
  obtain ⟨h1, h2⟩ := hN fuel hf k
  refine ⟨e1.trans h1, fun hk => ?_⟩
  obtain ⟨w', h2⟩ := h2 (by simpa using hk)
  change SameStop _ (samplePrompts (system c) fuel ⟨.comb, vars, being⟩ (.inl (source ps M)) k s).2
    (samplePrompts (withShelf c shelf) fuel ⟨.comb, vars, being⟩ (.inl (source ps M)) k s.rand).2 at e2
  rw [h2] at e2
  generalize (samplePrompts (system c) fuel ⟨.comb, vars, being⟩ (.inl (source ps M)) k s).2 = x at e2
  cases x <;> simp only [SameStop] at e2
  exact ⟨_, rfl⟩

/-! ### Examples -/

/-- The wildcard `d/a` of the example directory, from the files. -/
example : Lists (withShelf sysCfg (shelfOf sysCfg.mgr sysFs true true)) [] []
      (meaning [.wild none [.text c!"d/a"] []]) [c!"blue", c!"green"] ∧
    Spec.ok .top [.wild none [.text c!"d/a"] []] = true ∧ source [.wild none [.text c!"d/a"] []] = c!"__d/a__" := by
  refine ⟨?_, by decide +kernel, by decide +kernel⟩
  have e : meaning [.wild none [.text c!"d/a"] []] = .wild (.inl c!"d/a") none [] := by decide +kernel
  rw [e]
  refine Lists.wild (p := c!"d/a") (ps := [])
    (items := [⟨c!"blue", none⟩, ⟨c!"green", none⟩]) (fun t => [t]) (Or.inl rfl) ?_ ?_ (by simp) ?_
  · exact .text (c := .lit c!"d/a" none) (by simp) (by decide +kernel) (.lit (Or.inl rfl))
  · intro w
    have : shelfOf sysCfg.mgr sysFs true true c!"d/a" = .ok [⟨c!"blue", none⟩, ⟨c!"green", none⟩] := by
      decide +kernel
    refine ⟨w, ?_⟩
    show M.lift (shelfOf sysCfg.mgr sysFs true true c!"d/a") w = _
    rw [this]; rfl
  · intro t ht
    have ht : t = c!"blue" ∨ t = c!"green" := by
      have e : iterateWeighted [⟨c!"blue", none⟩, ⟨c!"green", none⟩] = [c!"blue", c!"green"] := by decide +kernel
      rw [e] at ht
      simpa using ht
    rcases ht with rfl | rfl
    · exact .text (c := .lit c!"blue" none) (by simp) (by decide +kernel) (.lit (Or.inl rfl))
    · exact .text (c := .lit c!"green" none) (by simp) (by decide +kernel) (.lit (Or.inl rfl))

end Verif.Props
