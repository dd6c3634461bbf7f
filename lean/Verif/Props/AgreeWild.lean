import Verif.Proofs.SameTexts
import Verif.Props.Composed
/-!
# The sampling methods agree also on wildcards and variables (C85)
-/

namespace Verif.Props
open Verif Verif.Spec

variable {W R : Type}

/-- **C85.**  Whatever the method, the limit and the random source: every prompt of the template is in its list. -/
theorem any_method_texts (E : Env W) (vars : List (Str × Cmd)) (being : List Str) (p : Prompt) (c : Cmd)
    (outs : List Str) (hr : ReadAs E p c) (h : SameTexts E vars being c outs) (fuel : Nat) (ctx : Ctx)
    (hv : ctx.vars = vars) (k : Nat) (w : W) :
    ∀ s ∈ (samplePrompts E fuel ctx p k w).1, s ∈ outs.map (squashIf E.ignoreWs) := by
  intro s hs
  have : Nonempty W := ⟨w⟩
  exact (reads_lang hr (sameTexts_agree h) s).1 (hv ▸ sampling_sound E fuel ctx p k w s hs)

/-- **C85.**  Combinatorial sampling returns the list, in order, and then ends. -/
theorem combinatorial_texts (E : Env W) (vars : List (Str × Cmd)) (being : List Str) (p : Prompt) (c : Cmd)
    (outs : List Str) (hr : ReadAs E p c) (h : SameTexts E vars being c outs) (w : W) :
    ∃ N, ∀ fuel ≥ N, ∀ k,
      (samplePrompts E fuel ⟨.comb, vars, being⟩ p k w).1 = (outs.map (squashIf E.ignoreWs)).take k ∧
      (outs.length < k → ∃ w', (samplePrompts E fuel ⟨.comb, vars, being⟩ p k w).2 = .stop w') := by
  have : Nonempty W := ⟨w⟩
  have := combinatorial_lists E vars being p _ (reads_lists hr (sameTexts_agree h)) w
  simpa only [List.length_map] using this

/-- **C85.**  A text is in the list if and only if random sampling returns it for some outcomes of the draws. -/
theorem random_iff_texts (E : Env Draws) (hE : E.rng = drawn) (vars : List (Str × Cmd)) (being : List Str) (p : Prompt)
    (c : Cmd) (outs : List Str) (hr : ReadAs E p c) (h : SameTexts E vars being c outs) (s : Str) :
    (∃ (outcomes : Draws) (fuel : Nat), (samplePrompts E fuel ⟨.random, vars, being⟩ p 1 outcomes).1 = [s]) ↔
    s ∈ outs.map (squashIf E.ignoreWs) := by
  constructor
  · rintro ⟨outcomes, fuel, hs⟩
    exact any_method_texts E vars being p c outs hr h fuel _ rfl 1 outcomes s (by rw [hs]; simp)
  · intro hs
    have : Nonempty Draws := ⟨[]⟩
    obtain ⟨t, ht, rfl⟩ := List.mem_map.1 hs
    obtain ⟨outcomes, N, hN⟩ := random_reaches E hE vars being p _ (reads_could hr (sameTexts_agree h) t ht)
    exact ⟨outcomes, N, hN N (Nat.le_refl _)⟩

/-- **C85.**  From text and files: with the files' values for its wildcards, a text is a combinatorial prompt of the
template if and only if random sampling returns it for some outcomes of the draws. -/
theorem random_iff_combinatorial_files (c : SysCfg R Draws) (hd : c.rng = drawn) (M : Marks) (al : Char → Bool)
    (hM : M.usable al = true) (hc : c.parser = .of M al)
    (past : Sys R Draws) (ops : List (SysOp R Draws)) (hoff : past.mgr.shuffle = false) (hq : ∀ op ∈ ops, Quiet op) :
    let s := runSys c ops { past with mgr := Mgr.clearCache past.mgr }
    ∀ shelf, OnShelf c.mgr s.mgr.fs s.mgr.sort s.mgr.dedup shelf →
    ∀ (ps : List Piece), Spec.ok .top ps M = true → '\t' ∉ source ps M → source ps M ≠ [] →
    ∀ (vars : List (Str × Cmd)) (being : List Str) (outs : List Str),
      SameTexts (withShelf c shelf) vars being (meaning ps) outs →
    ∀ t : Str,
      ((∃ (outcomes : Draws) (fuel : Nat),
        (samplePrompts (system c) fuel ⟨.random, vars, being⟩ (.inl (source ps M)) 1 { s with rand := outcomes }).1 =
          [t]) ↔
      ∃ (outcomes : Draws) (fuel k : Nat),
        t ∈ (samplePrompts (system c) fuel ⟨.comb, vars, being⟩ (.inl (source ps M)) k
          { s with rand := outcomes }).1) := by
  intro s shelf hs ps hok ht hne vars being outs h t
  have hx := text_on_shelf c M al hM hc past ops hoff hq shelf hs ps hok ht hne
  have hr : ReadAs (withShelf c shelf) (.inl (source ps M)) (meaning ps) :=
    .text hne (hx s.rand 0 ⟨.random, vars, being⟩ 0).2.2
  simp only [s, fun r fuel => (hx r fuel ⟨.random, vars, being⟩ 1).1, fun r fuel k => (hx r fuel ⟨.comb, vars, being⟩ k).1]
  rw [random_iff_texts (withShelf c shelf) hd vars being _ _ outs hr h t]
  constructor
  · intro hm
    obtain ⟨N, hN⟩ := combinatorial_texts (withShelf c shelf) vars being _ _ outs hr h ([] : Draws)
    refine ⟨[], N, outs.length, ?_⟩
    rw [(hN N (Nat.le_refl _) _).1, List.take_of_length_le (by simp)]
    exact hm
  · rintro ⟨outcomes, fuel, k, hm⟩
    exact any_method_texts (withShelf c shelf) vars being _ _ outs hr h fuel _ rfl k outcomes t hm

/-! ### Examples -/

/-- `${v=!z}__colors__${v}{2$$a|b}` with colors `red` and `blue`. -/
example : SameTexts Demo.env [] [] (.seq [.assign c!"v" (.seq [.lit c!"z" none] [] none) true true,
    .wild (.inl c!"colors") none [], .access c!"v" none,
    .variant [(.lit c!"a" none, 1), (.lit c!"b" none, 1)] 2 2 c!"," none] [] none)
    [c!"redza,b", c!"redzb,a", c!"blueza,b", c!"bluezb,a"] := by
  have nf : Spec.Finite none := Or.inl rfl
  let lits : Cmd → List Str := fun c => match c with
    | .lit s _ => [s]
    | _ => []
  let f : Cmd → List Str := fun c => match c with
    | .wild .. => [c!"red", c!"blue"]
    | .access .. => [c!"z"]
    | _ => variantTexts [(.lit c!"a" none, 1), (.lit c!"b" none, 1)] 2 2 c!"," lits
  have hz : SameTexts Demo.env [] [] (.seq [.lit c!"z" none] [] none) [c!"z"] :=
    .seq (toks' := [.lit c!"z" none]) (new := []) (fun _ => []) lits nf (.tok (by simp) .nil) (by simp)
      (by simp only [List.mem_singleton, forall_eq]; exact .lit nf)
  have h := SameTexts.seq (E := Demo.env) (vars := []) (being := []) (m := none)
    (toks := [.assign c!"v" (.seq [.lit c!"z" none] [] none) true true, .wild (.inl c!"colors") none [],
      .access c!"v" none, .variant [(.lit c!"a" none, 1), (.lit c!"b" none, 1)] 2 2 c!"," none])
    (fun _ => c!"z") f nf (.now (Or.inl rfl) (by simp) (.tok (by simp) (.tok (by simp) (.tok (by simp) .nil))))
    (by simp only [List.mem_cons, Cmd.assign.injEq, List.not_mem_nil, reduceCtorEq, or_false, and_imp]
        rintro n v o rfl rfl _ rfl _
        exact hz)
    (by
      simp only [List.mem_cons, List.not_mem_nil, or_false, forall_eq_or_imp, forall_eq]
      refine ⟨?_, .access (c := .lit c!"z" none) (.var rfl rfl) (by simp) (.lit nf), ?_⟩
      · have e : f (.wild (.inl c!"colors") none []) =
            ((iterateWeighted [⟨c!"red", none⟩, ⟨c!"blue", none⟩]).flatMap fun x =>
              [x].map (squashIf Demo.env.ignoreWs)) := by decide +kernel
        rw [e]
        refine .wild (q := c!"colors") (fun x => .lit x none) (fun x => [x]) nf (.text (by simp) rfl) (.lit nf)
          (fun w => rfl) (by simp) ?_ ?_ ?_
        · simp
        · simp only [List.mem_cons, List.not_mem_nil, or_false, forall_eq_or_imp, forall_eq]
          exact ⟨.text (by simp) rfl, .text (by simp) rfl⟩
        · exact fun _ _ => .lit nf
      · refine .several lits nf (by simp) (by simp) ?_ (by decide) (by decide +kernel)
        simp only [List.mem_cons, List.not_mem_nil, or_false, forall_eq_or_imp, forall_eq]
        exact ⟨.lit nf, .lit nf⟩)
  have e : (product ([Cmd.wild (.inl c!"colors") none [], .access c!"v" none,
      .variant [(.lit c!"a" none, 1), (.lit c!"b" none, 1)] 2 2 c!"," none].map f)).map (joined []) =
      [c!"redza,b", c!"redzb,a", c!"blueza,b", c!"bluezb,a"] := by decide +kernel
  exact e ▸ h

/-- The system of the examples with freely chosen draws. -/
def drawnSys : SysCfg Nat Draws := ⟨sysCfg.mgr, .default fun _ => false, drawn, true, none⟩

/-- The template `__d/a__`. -/
def wildText : List Piece := [.wild none [.text c!"d/a"] []]

/-- `__d/a__` from the files, with whitespace squashing on: at random `blue` or `green`, nothing else. -/
example : source wildText = c!"__d/a__" ∧ ∀ t : Str,
    (∃ (outcomes : Draws) (fuel : Nat), (samplePrompts (system drawnSys) fuel ⟨.random, [], []⟩ (.inl (source wildText)) 1
      ⟨Mgr.clearCache (newMgr sysFs 0), outcomes⟩).1 = [t]) ↔
    ∃ (outcomes : Draws) (fuel k : Nat), t ∈ (samplePrompts (system drawnSys) fuel ⟨.comb, [], []⟩
      (.inl (source wildText)) k ⟨Mgr.clearCache (newMgr sysFs 0), outcomes⟩).1 := by
  refine ⟨by decide +kernel, ?_⟩
  have nf : Spec.Finite none := Or.inl rfl
  have hsh : shelfOf drawnSys.mgr sysFs true true c!"d/a" = .ok [⟨c!"blue", none⟩, ⟨c!"green", none⟩] := by
    decide +kernel
  have hmean : meaning wildText = .wild (.inl c!"d/a") none [] := by decide +kernel
  refine random_iff_combinatorial_files drawnSys rfl {} (fun _ => false) (default_marks_usable _) rfl
    ⟨newMgr sysFs 0, []⟩ [] rfl (by simp) (shelfOf drawnSys.mgr sysFs true true) (shelfOf_onShelf _ _ _ _)
    wildText (by decide +kernel) (by decide +kernel) (by decide +kernel) [] []
    ((iterateWeighted [⟨c!"blue", none⟩, ⟨c!"green", none⟩]).flatMap fun x => [x].map (squashIf true)) ?_
  rw [hmean]
  refine .wild (q := c!"d/a") (fun x => .lit x none) (fun x => [x]) nf
    (.text (by simp) (by decide +kernel)) (.lit nf) ?_ (by simp) (by simp) ?_ (fun _ _ => .lit nf)
  · intro w
    rw [show squashIf (withShelf drawnSys (shelfOf drawnSys.mgr sysFs true true)).ignoreWs c!"d/a" = c!"d/a" by
      decide +kernel]
    show M.lift (shelfOf drawnSys.mgr sysFs true true c!"d/a") w = _
    rw [hsh]
    rfl
  · simp only [List.mem_cons, List.not_mem_nil, or_false, forall_eq_or_imp, forall_eq]
    exact ⟨.text (by simp) (by decide +kernel), .text (by simp) (by decide +kernel)⟩

end Verif.Props
