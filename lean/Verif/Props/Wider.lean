import Verif.Proofs.Wider
import Verif.Props.AgreeWild
/-!
# C109: more options and more values only add prompts

`Spec.Wider` says that a template is another one with options added to its choices, `Spec.More` and `Spec.MoreValues` that
an environment has wildcards with more values.
-/

namespace Verif.Props
open Verif Verif.Spec
variable {W R : Type}

/-- **C109.**  What random sampling could give before, it gives for some outcomes of the draws when options are added to
choices and values to wildcards. -/
theorem more_reachable (E E' : Env Draws) (hE' : E'.rng = drawn) (hM : More E E') (vars vars' : List (Str × Cmd))
    (hv : WiderVars E E' vars vars') (being : List Str) (p p' : Prompt) (hp : WiderPrompt E E' p p') (s : Str)
    (h : CouldPrompt E vars being p s) :
    ∃ (outcomes : Draws) (N : Nat), ∀ fuel ≥ N,
      (samplePrompts E' fuel ⟨.random, vars', being⟩ p' 1 outcomes).1 = [s] :=
  random_reaches E' hE' vars' being p' s (couldPrompt_wider hM hv h hp)

/-- **C109** for templates of literals, sequences, choices and wraps: every prompt random sampling returns before, it
returns for some outcomes of the draws when options are added. -/
theorem more_options (E E' : Env Draws) (hE' : E'.rng = drawn) (hM : More E E') (hws : E.ignoreWs = false)
    (vars vars' : List (Str × Cmd)) (hv : WiderVars E E' vars vars') (being : List Str) (c c' : Cmd)
    (h : PlainRandom c) (ht : c.truthy = true) (hc : Wider E E' c c') (fuel k : Nat) (w : Draws) :
    ∀ s ∈ (samplePrompts E fuel ⟨.random, vars, being⟩ (.inr c) k w).1,
    ∃ (outcomes : Draws) (N : Nat), ∀ fuel ≥ N,
      (samplePrompts E' fuel ⟨.random, vars', being⟩ (.inr c') 1 outcomes).1 = [s] := by
  intro s hs
  refine more_reachable E E' hE' hM vars vars' hv being _ _ (.cmd hc) s ?_
  have := sampling_sound E fuel ⟨.random, vars, being⟩ (.inr c) k w s hs
  generalize hp : (Sum.inr c : Prompt) = p at this
  cases this with
  | text => cases hp
  | cmd _ hl =>
    cases hp
    exact .cmd ht (lang_could hws h vars being _ hl)

/-- **C109** for templates whose prompts all methods agree on: whatever any method returns before, random sampling returns
for some outcomes of the draws when options and values are added. -/
theorem more_prompts (E E' : Env Draws) (hE' : E'.rng = drawn) (hM : More E E') (vars vars' : List (Str × Cmd))
    (hv : WiderVars E E' vars vars') (being : List Str) (p p' : Prompt) (hp : WiderPrompt E E' p p') (c : Cmd)
    (outs : List Str) (hr : ReadAs E p c) (h : SameTexts E vars being c outs) (fuel : Nat) (ctx : Ctx)
    (hctx : ctx.vars = vars) (k : Nat) (w : Draws) :
    ∀ s ∈ (samplePrompts E fuel ctx p k w).1,
    ∃ (outcomes : Draws) (N : Nat), ∀ fuel ≥ N,
      (samplePrompts E' fuel ⟨.random, vars', being⟩ p' 1 outcomes).1 = [s] := by
  intro s hs
  have : Nonempty Draws := ⟨[]⟩
  obtain ⟨t, ht, rfl⟩ := List.mem_map.1 (any_method_texts E vars being p c outs hr h fuel ctx hctx k w s hs)
  exact more_reachable E E' hE' hM vars vars' hv being p p' hp _ (reads_could hr (sameTexts_agree h) t ht)

/-- **C109**: and every such prompt is among the combinatorial prompts, if all methods agree on the wider template too. -/
theorem more_prompts_listed (E E' : Env W) (hM : More E E') (vars vars' : List (Str × Cmd))
    (hv : WiderVars E E' vars vars') (being : List Str) (p p' : Prompt) (hp : WiderPrompt E E' p p') (c c' : Cmd)
    (outs outs' : List Str) (hr : ReadAs E p c) (h : SameTexts E vars being c outs) (hr' : ReadAs E' p' c')
    (h' : SameTexts E' vars' being c' outs') (w' : W) :
    ∃ N, ∀ fuel' ≥ N, ∀ k' ≥ outs'.length, ∀ (fuel : Nat) (ctx : Ctx), ctx.vars = vars → ∀ (k : Nat) (w : W),
      ∀ s ∈ (samplePrompts E fuel ctx p k w).1, s ∈ (samplePrompts E' fuel' ⟨.comb, vars', being⟩ p' k' w').1 := by
  have : Nonempty W := ⟨w'⟩
  obtain ⟨N, hN⟩ := combinatorial_texts E' vars' being p' c' outs' hr' h' w'
  refine ⟨N, fun fuel' hf k' hk fuel ctx hctx k w s hs => ?_⟩
  rw [(hN fuel' hf k').1, List.take_of_length_le (by simpa using hk)]
  obtain ⟨t, ht, rfl⟩ := List.mem_map.1 (any_method_texts E vars being p c outs hr h fuel ctx hctx k w s hs)
  exact (reads_lang hr' (sameTexts_agree h') _).1
    (couldPrompt_lang (couldPrompt_wider hM hv (reads_could hr (sameTexts_agree h) t ht) hp))

theorem more_values_could [Nonempty W] (E E' : Env W) (hM : MoreValues E E') (vars : List (Str × Cmd))
    (hv : ∀ q ∈ vars, Settled E q.2) (being : List Str) (p : Prompt) (c : Cmd) (hc : Settled E c) (outs : List Str)
    (hr : ReadAs E p c) (h : SameTexts E vars being c outs) (t : Str) (ht : t ∈ outs) :
    CouldPrompt E' vars being p (squashIf E.ignoreWs t) := by
  have hS := strict_more hM
  refine couldPrompt_wider (moreValues_more hM) (widerVars_self fun q hq => settled_wider hS (settled_strict (hv q hq)))
    (reads_could (readAs_env (E := E) (E₀ := strictEnv E) rfl hr) (sameTexts_agree (sameTexts_strict h)) t ht) ?_
  have hw := settled_wider hS (settled_strict hc)
  cases hr with
  | text hne hparse =>
    refine .text ⟨id, fun x hx => ⟨x, ?_, ?_⟩⟩
    · rw [hM.parse]; exact hx
    · have hx' : E.parse _ = .ok x := hx
      rw [hparse] at hx'
      cases hx'
      exact hw
  | cmd ht => exact .cmd hw

/-- **C109** for wildcards with more values: whatever any method returns for a template before, random sampling returns for
some outcomes of the draws afterwards. -/
theorem more_values (E E' : Env Draws) (hE' : E'.rng = drawn) (hM : MoreValues E E') (vars : List (Str × Cmd))
    (hv : ∀ q ∈ vars, Settled E q.2) (being : List Str) (p : Prompt) (c : Cmd) (hc : Settled E c) (outs : List Str)
    (hr : ReadAs E p c) (h : SameTexts E vars being c outs) (fuel : Nat) (ctx : Ctx) (hctx : ctx.vars = vars) (k : Nat)
    (w : Draws) :
    ∀ s ∈ (samplePrompts E fuel ctx p k w).1,
    ∃ (outcomes : Draws) (N : Nat), ∀ fuel ≥ N,
      (samplePrompts E' fuel ⟨.random, vars, being⟩ p 1 outcomes).1 = [s] := by
  intro s hs
  have : Nonempty Draws := ⟨[]⟩
  obtain ⟨t, ht, rfl⟩ := List.mem_map.1 (any_method_texts E vars being p c outs hr h fuel ctx hctx k w s hs)
  exact random_reaches E' hE' vars being p _ (more_values_could E E' hM vars hv being p c hc outs hr h t ht)

/-- **C109** for wildcards with more values: and it is among the combinatorial prompts afterwards. -/
theorem more_values_listed (E E' : Env W) (hM : MoreValues E E') (vars : List (Str × Cmd))
    (hv : ∀ q ∈ vars, Settled E q.2) (being : List Str) (p : Prompt) (c : Cmd) (hc : Settled E c) (outs outs' : List Str)
    (hr : ReadAs E p c) (h : SameTexts E vars being c outs) (h' : SameTexts E' vars being c outs') (w' : W) :
    ∃ N, ∀ fuel' ≥ N, ∀ k' ≥ outs'.length, ∀ (fuel : Nat) (ctx : Ctx), ctx.vars = vars → ∀ (k : Nat) (w : W),
      ∀ s ∈ (samplePrompts E fuel ctx p k w).1, s ∈ (samplePrompts E' fuel' ⟨.comb, vars, being⟩ p k' w').1 := by
  have : Nonempty W := ⟨w'⟩
  have hr' : ReadAs E' p c := readAs_env (E := E) (E₀ := E') hM.parse hr
  obtain ⟨N, hN⟩ := combinatorial_texts E' vars being p c outs' hr' h' w'
  refine ⟨N, fun fuel' hf k' hk fuel ctx hctx k w s hs => ?_⟩
  rw [(hN fuel' hf k').1, List.take_of_length_le (by simpa using hk)]
  obtain ⟨t, ht, rfl⟩ := List.mem_map.1 (any_method_texts E vars being p c outs hr h fuel ctx hctx k w s hs)
  exact (reads_lang hr' (sameTexts_agree h') _).1 (couldPrompt_lang (more_values_could E E' hM vars hv being p c hc outs hr h t ht))

/-- Shelves, on the second of which wildcards that have values may have more of them. -/
structure MoreOnShelf (c : SysCfg R W) (shelf shelf' : Str → Except Err (List Item)) : Prop where
  unknown : ∀ u, c.unknown = some u → Settled (withShelf c shelf) u
  values : ∀ wc items, shelf wc = .ok items → items ≠ [] → ∃ items', shelf' wc = .ok items' ∧ items.Sublist items' ∧
    (∀ i, i ∈ items → ∀ x, parse c.parser i.content = .ok x → Settled (withShelf c shelf) x) ∧
    ∀ i, i ∈ items' → 0 ≤ i.weight.getD 1 ∧ i.content ≠ [] ∧ ∃ x, parse c.parser i.content = .ok x

theorem gives_shelf [Nonempty W] {c : SysCfg R W} {shelf : Str → Except Err (List Item)} {wc : Str} {items : List Item} :
    Spec.Gives (withShelf c shelf) wc items ↔ shelf wc = .ok items := by
  constructor
  · intro h
    obtain ⟨w⟩ := ‹Nonempty W›
    have := h w
    simp only [withShelf] at this
    cases e : shelf wc with
    | ok l => rw [e] at this; cases this; rfl
    | error x => rw [e] at this; cases this
  · intro h w
    simp only [withShelf, h]
    rfl

theorem MoreOnShelf.moreValues [Nonempty W] {c : SysCfg R W} {shelf shelf' : Str → Except Err (List Item)}
    (h : MoreOnShelf c shelf shelf') : MoreValues (withShelf c shelf) (withShelf c shelf') where
  parse := rfl
  ignoreWs := rfl
  toWildcard := rfl
  unknown := rfl
  unknownSettled := h.unknown
  values wc items hg hne := by
    obtain ⟨items', h1, h2⟩ := h.values wc items (gives_shelf.1 hg) hne
    exact ⟨items', gives_shelf.2 h1, h2⟩

/-- **C109** from text and files: after values were added to wildcard files, each prompt that any method returned for the
template before is a combinatorial prompt. -/
theorem more_values_files (c : SysCfg R W) (M : Marks) (al : Char → Bool)
    (hM : M.usable al = true) (hc : c.parser = .of M al)
    (past past' : Sys R W) (ops ops' : List (SysOp R W)) (hoff : past.mgr.shuffle = false) (hoff' : past'.mgr.shuffle = false)
    (hq : ∀ op ∈ ops, Quiet op) (hq' : ∀ op ∈ ops', Quiet op) :
    let s := runSys c ops { past with mgr := Mgr.clearCache past.mgr }
    let s' := runSys c ops' { past' with mgr := Mgr.clearCache past'.mgr }
    ∀ shelf shelf', OnShelf c.mgr s.mgr.fs s.mgr.sort s.mgr.dedup shelf →
      OnShelf c.mgr s'.mgr.fs s'.mgr.sort s'.mgr.dedup shelf' → MoreOnShelf c shelf shelf' →
    ∀ (ps : List Piece), Spec.ok .top ps M = true → '\t' ∉ source ps M → source ps M ≠ [] →
    ∀ (vars : List (Str × Cmd)) (being : List Str) (outs outs' : List Str),
      Settled (withShelf c shelf) (meaning ps) → (∀ q ∈ vars, Settled (withShelf c shelf) q.2) →
      SameTexts (withShelf c shelf) vars being (meaning ps) outs →
      SameTexts (withShelf c shelf') vars being (meaning ps) outs' →
    ∀ (fuel : Nat) (ctx : Ctx), ctx.vars = vars → ∀ (k : Nat) (r r' : W),
    ∀ t ∈ (samplePrompts (system c) fuel ctx (.inl (source ps M)) k { s with rand := r }).1,
      ∃ N, ∀ fuel' ≥ N, ∀ k' ≥ outs'.length,
        t ∈ (samplePrompts (system c) fuel' ⟨.comb, vars, being⟩ (.inl (source ps M)) k' { s' with rand := r' }).1 := by
  intro s s' shelf shelf' hs hs' hmore ps hok ht hne vars being outs outs' hset hv h h' fuel ctx hctx k r r' t hm
  have : Nonempty W := ⟨r⟩
  have hx := text_on_shelf c M al hM hc past ops hoff hq shelf hs ps hok ht hne
  have hx' := text_on_shelf c M al hM hc past' ops' hoff' hq' shelf' hs' ps hok ht hne
  have hr : ReadAs (withShelf c shelf) (.inl (source ps M)) (meaning ps) := .text hne (hx r 0 ⟨.random, vars, being⟩ 0).2.2
  rw [(hx r fuel ctx k).1] at hm
  obtain ⟨N, hN⟩ := more_values_listed (withShelf c shelf) (withShelf c shelf') hmore.moreValues vars hv being
    (.inl (source ps M)) (meaning ps) hset outs outs' hr h h' r'
  refine ⟨N, fun fuel' hf k' hk => ?_⟩
  rw [(hx' r' fuel' ⟨.comb, vars, being⟩ k').1]
  exact hN fuel' hf k' hk fuel ctx hctx k r t hm

/-! ### Examples -/

/-- The example environment, with freely chosen draws. -/
def fewColors : Env Draws :=
  { rng := drawn, parse := Demo.env.parse, ignoreWs := false, unknown := none, toWildcard := Demo.env.toWildcard,
    getValues := fun s => pure (if s = c!"colors" then [⟨c!"red", none⟩, ⟨c!"blue", none⟩] else []) }

/-- The same with one more color, and a value for another wildcard. -/
def moreColors : Env Draws :=
  { fewColors with getValues := fun s => pure (
      if s = c!"colors" then [⟨c!"red", none⟩, ⟨c!"green", none⟩, ⟨c!"blue", none⟩]
      else if s = c!"sizes" then [⟨c!"big", none⟩] else []) }

theorem fewColors_gives {wc : Str} {items : List Item} (h : Spec.Gives fewColors wc items) :
    items = if wc = c!"colors" then [⟨c!"red", none⟩, ⟨c!"blue", none⟩] else [] := by
  have := h []
  cases this
  rfl

theorem colors_more : MoreValues fewColors moreColors where
  parse := rfl
  ignoreWs := rfl
  toWildcard := rfl
  unknown := rfl
  unknownSettled := by intro u hu; cases hu
  values := by
    intro wc items hg hne
    have e := fewColors_gives hg
    by_cases hw : wc = c!"colors"
    · subst hw
      rw [if_pos rfl] at e
      subst e
      refine ⟨[⟨c!"red", none⟩, ⟨c!"green", none⟩, ⟨c!"blue", none⟩], fun w => rfl, by decide, ?_, ?_⟩
      · intro i _ c hc
        cases hc
        exact .lit
      · intro i hi
        refine ⟨?_, ?_, _, rfl⟩
        · simp only [List.mem_cons, List.not_mem_nil, or_false] at hi
          rcases hi with rfl | rfl | rfl <;> decide
        · simp only [List.mem_cons, List.not_mem_nil, or_false] at hi
          rcases hi with rfl | rfl | rfl <;> simp
    · rw [if_neg hw] at e
      exact absurd e hne

/-- `{2$$ and $$__colors__}`. -/
def twoColors : Cmd := .variant [(.wild (.inl c!"colors") none [], 1)] 2 2 c!" and " none

theorem twoColors_settled : Settled fewColors twoColors := by
  have name : ∀ {vars being wc}, CouldPrompt fewColors vars being (.inl c!"colors") wc → wc = c!"colors" := by
    intro vars being wc h
    cases couldPrompt_lang h with
    | text _ hp hl =>
      cases hp
      cases hl
      rfl
  refine .lone ?_ ?_ ?_ ?_
  · intro t c _ hc
    cases hc
    exact .lit
  · intro c hc
    cases hc
  · intro vars being wc items h hg
    rw [name h] at hg
    rw [fewColors_gives hg]
    decide
  · intro vars being wc items i c _ _ _ hc
    cases hc
    exact .lit

/-- The text of a literal. -/
def litTexts : Cmd → List Str
  | .lit s _ => [s]
  | _ => []

theorem twoColors_texts : SameTexts fewColors [] [] twoColors [c!"red and blue", c!"blue and red"] := by
  refine .ofValues (c := .lit c!"colors" none) (q := c!"colors") (items := [⟨c!"red", none⟩, ⟨c!"blue", none⟩])
    (cs := [.lit c!"red" none, .lit c!"blue" none]) (Or.inl rfl) (.text (by simp) rfl) (.lit (Or.inl rfl)) (fun w => rfl)
    (.cons rfl (.cons rfl .nil)) ?_
  have e : variantTexts [(.lit c!"red" none, 1), (.lit c!"blue" none, 1)] 2 2 c!" and " litTexts =
      [c!"red and blue", c!"blue and red"] := by decide +kernel
  rw [← e]
  refine .several litTexts (Or.inl rfl) (by simp) ?_ ?_ (by decide) (by decide +kernel)
  · simp only [List.map_cons, List.map_nil, List.mem_cons, List.not_mem_nil, or_false, forall_eq_or_imp, forall_eq]
    decide
  · simp only [List.map_cons, List.map_nil, List.mem_cons, List.not_mem_nil, or_false, forall_eq_or_imp, forall_eq]
    exact ⟨.lit (Or.inl rfl), .lit (Or.inl rfl)⟩

theorem twoColors_more_texts : SameTexts moreColors [] [] twoColors [c!"red and green", c!"red and blue",
    c!"green and red", c!"green and blue", c!"blue and red", c!"blue and green"] := by
  refine .ofValues (c := .lit c!"colors" none) (q := c!"colors")
    (items := [⟨c!"red", none⟩, ⟨c!"green", none⟩, ⟨c!"blue", none⟩])
    (cs := [.lit c!"red" none, .lit c!"green" none, .lit c!"blue" none]) (Or.inl rfl) (.text (by simp) rfl)
    (.lit (Or.inl rfl)) (fun w => rfl) (.cons rfl (.cons rfl (.cons rfl .nil))) ?_
  have e : variantTexts [(.lit c!"red" none, 1), (.lit c!"green" none, 1), (.lit c!"blue" none, 1)] 2 2 c!" and " litTexts =
      [c!"red and green", c!"red and blue", c!"green and red", c!"green and blue", c!"blue and red",
        c!"blue and green"] := by decide +kernel
  rw [← e]
  refine .several litTexts (Or.inl rfl) (by simp) ?_ ?_ (by decide) (by decide +kernel)
  · simp only [List.map_cons, List.map_nil, List.mem_cons, List.not_mem_nil, or_false, forall_eq_or_imp, forall_eq]
    decide
  · simp only [List.map_cons, List.map_nil, List.mem_cons, List.not_mem_nil, or_false, forall_eq_or_imp, forall_eq]
    exact ⟨.lit (Or.inl rfl), .lit (Or.inl rfl), .lit (Or.inl rfl)⟩

/-- With the third color, random sampling can still give `blue and red`, and it is still a combinatorial prompt. -/
example : (∃ (outcomes : Draws) (N : Nat), ∀ fuel ≥ N,
      (samplePrompts moreColors fuel ⟨.random, [], []⟩ (.inr twoColors) 1 outcomes).1 = [c!"blue and red"]) ∧
    ∃ N, ∀ fuel ≥ N, ∀ k ≥ 6, c!"blue and red" ∈ (samplePrompts moreColors fuel ⟨.comb, [], []⟩ (.inr twoColors) k []).1 := by
  obtain ⟨N, hN⟩ := combinatorial_texts fewColors [] [] (.inr twoColors) twoColors _ (.cmd rfl) twoColors_texts []
  have hm : c!"blue and red" ∈ (samplePrompts fewColors N ⟨.comb, [], []⟩ (.inr twoColors) 2 []).1 := by
    rw [(hN N (Nat.le_refl _) 2).1]
    decide +kernel
  constructor
  · exact more_values fewColors moreColors rfl colors_more [] (by simp) [] (.inr twoColors) twoColors twoColors_settled _
      (.cmd rfl) twoColors_texts N ⟨.comb, [], []⟩ rfl 2 [] _ hm
  · obtain ⟨N', hN'⟩ := more_values_listed fewColors moreColors colors_more [] (by simp) [] (.inr twoColors) twoColors
      twoColors_settled _ _ (.cmd rfl) twoColors_texts twoColors_more_texts []
    exact ⟨N', fun fuel hf k hk => hN' fuel hf k hk N ⟨.comb, [], []⟩ rfl 2 [] _ hm⟩

/-- `{a|b}` and `{a|0.5::c|3::b}`. -/
example : Wider fewColors moreColors (.variant [(.lit c!"a" none, 1), (.lit c!"b" none, 1)] 1 1 c!"," none)
    (.variant [(.lit c!"a" none, 1), (.lit c!"c" none, 1 / 2), (.lit c!"b" none, 3)] 1 1 c!"," none) := by
  refine .variant ?_ (.keep .lit (by decide) (by decide) (.add (by decide +kernel)
    (.keep .lit (by decide) (by decide) .nil))) (.inr ⟨by simp, by decide, by decide, by simp⟩)
  rintro ⟨p, m, v, w, e⟩
  cases e

/-- The condition on the number of picks is needed: `{3$$a|b}` picks as many options as there are. -/
example : variantTexts [(.lit c!"a" none, 1), (.lit c!"b" none, 1)] 3 3 [] litTexts = [c!"ab", c!"ba"] ∧
    c!"ab" ∉ variantTexts [(.lit c!"a" none, 1), (.lit c!"b" none, 1), (.lit c!"c" none, 1)] 3 3 [] litTexts := by
  decide +kernel

end Verif.Props
