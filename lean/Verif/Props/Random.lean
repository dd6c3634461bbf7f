import Verif.Proofs.Live
import Verif.Spec.Demo
/-!
# C13 random generation never runs dry, C39 missing wildcards
-/

namespace Verif.Props
open Verif Spec
variable {W : Type}

/-! ## C13 -/

/-- **C13.**  Sampling a productive prompt (see `Spec.ProdPrompt`) `k` times gives exactly `k`
prompts, whatever the random source does, and the generator could go on. -/
theorem productive_returns_all (E : Env W) (ctx : Ctx) (p : Prompt)
    (h : ProdPrompt E ctx.method ctx.vars ctx.being p) (k : Nat) (w : W) :
    ∃ N, ∀ fuel ≥ N, (samplePrompts E fuel ctx p k w).1.length = k ∧
      ∃ g w', (samplePrompts E fuel ctx p k w).2 = .limit g w' := by
  obtain ⟨g, hg, hl⟩ := prodPrompt_live h
  have hg' : sampleGen E ctx p = .ok g := hg
  simp only [samplePrompts, hg']
  exact hl.collect k w

theorem nest_random {m : Option Method} (h : m ≠ some .cyc) : nest .random m = .random := by
  rcases m with _ | m
  · rfl
  · cases m with
    | random => rfl
    | comb => rfl
    | cyc => exact absurd rfl h

theorem simple_prod (E : Env W) {c : Cmd} (h : SimpleRandom c) (vars : List (Str × Cmd))
    (being : List Str) : Prod E .random vars being c := by
  induction h generalizing vars being with
  | lit hm => exact .cmd (by simp) (by simp only [Cmd.method]; rw [nest_random hm]; exact .lit (by simp))
  | @seq toks sep m hm hs ih =>
    refine .cmd (by simp) ?_
    simp only [Cmd.method]
    rw [nest_random hm]
    have hna : ∀ c ∈ toks, ∀ n v i o, c ≠ .assign n v i o := by
      rintro c hc n v i o rfl
      exact absurd (hs _ hc) (by intro h; cases h)
    refine .seq (by simp) (fun n v o hmem => absurd rfl (hna _ hmem n v true o)) ?_
    intro toks' new hA c hc
    have : ∀ {toks toks' new}, Assigned E vars toks toks' new → ∀ c ∈ toks', c ∈ toks := by
      intro toks toks' new hA
      induction toks generalizing toks' new with
      | nil => cases hA; simp
      | cons t toks ih =>
        cases hA with
        | tok _ h =>
          intro c hc
          rcases List.mem_cons.1 hc with rfl | hc
          · simp
          · simp [ih h c hc]
        | set _ h => intro c hc; simp [ih h c hc]
    exact ih c (this hA c hc) _ _
  | @variant opts lo hi sep m hm hne hw hs h0 ih =>
    refine .cmd (by simp) ?_
    simp only [Cmd.method]
    rw [nest_random hm]
    match opts, hne with
    | [(c, wt)], _ =>
      refine .single ?_ (ih (c, wt) (by simp) _ _)
      rintro ⟨p, m, v, w, he⟩
      simp only [List.cons.injEq, Prod.mk.injEq, and_true] at he
      have := hs (c, wt) (by simp)
      rw [he.1] at this
      cases this
    | a :: b :: l, _ =>
      refine .random (by simp) h0 ⟨?_, ?_⟩ (fun p hp => ih p hp _ _)
      · intro x hx
        obtain ⟨p, hp, rfl⟩ := List.mem_map.1 hx
        exact (hw p hp).le
      · have : ((a :: b :: l).map (·.2)).countP (fun x => decide (0 < x)) = (a :: b :: l).length := by
          rw [List.countP_map]
          rw [List.countP_eq_length.2]
          intro p hp
          simpa using hw p hp
        rw [this]; omega
  | wrap hm _ _ ih1 ih2 =>
    refine .cmd (by simp) ?_
    simp only [Cmd.method]
    rw [nest_random hm]
    exact .wrap (ih1 _ _) (ih2 _ _)

/-- **C13**, the simple case: a template of literals, sequences, variants and wraps, where every
variant has an option and all weights are positive. -/
theorem random_returns_all (E : Env W) (ctx : Ctx) (hm : ctx.method = .random) (c : Cmd)
    (h : SimpleRandom c) (hne : c.truthy = true) (k : Nat) (w : W) :
    ∃ N, ∀ fuel ≥ N, (samplePrompts E fuel ctx (.inr c) k w).1.length = k ∧
      ∃ g w', (samplePrompts E fuel ctx (.inr c) k w).2 = .limit g w' :=
  productive_returns_all E ctx _ (.cmd hne (by rw [hm]; exact simple_prod E h _ _)) k w

/-- Non-vacuity: `{a|2::b{c|d}} e` . -/
example : SimpleRandom (.seq [.variant [(.lit c!"a" none, 1), (.seq [.lit c!"b" none,
    Demo.oneOf [c!"c", c!"d"]] [] none, 2)] 1 1 c!"," none, .lit c!" e" none] [] none) := by
  refine .seq (by simp) ?_
  intro c hc
  simp only [List.mem_cons, List.not_mem_nil, or_false] at hc
  rcases hc with rfl | rfl
  · refine .variant (by simp) (by simp) ?_ ?_ (by decide)
    · intro p hp
      simp only [List.mem_cons, List.not_mem_nil, or_false] at hp
      rcases hp with rfl | rfl <;> decide +kernel
    · intro p hp
      simp only [List.mem_cons, List.not_mem_nil, or_false] at hp
      rcases hp with rfl | rfl
      · exact .lit (by simp)
      · refine .seq (by simp) ?_
        intro c hc
        simp only [List.mem_cons, List.not_mem_nil, or_false] at hc
        rcases hc with rfl | rfl
        · exact .lit (by simp)
        · refine .variant (by simp) (by simp) ?_ ?_ (by decide)
          · intro p hp
            simp only [List.map_cons, List.map_nil, List.mem_cons, List.not_mem_nil, or_false] at hp
            rcases hp with rfl | rfl <;> decide +kernel
          · intro p hp
            simp only [List.map_cons, List.map_nil, List.mem_cons, List.not_mem_nil, or_false] at hp
            rcases hp with rfl | rfl <;> exact .lit (by simp)
  · exact .lit (by simp)

/-- Non-vacuity with a wildcard and a variable: `${x=__colors__}${x}`. -/
example : ProdPrompt Demo.env .random [] []
    (.inr (.seq [.assign c!"x" (.wild (.inl c!"colors") none []) false true, .access c!"x" none]
      [] none)) := by
  have hpath : ∀ vars being, ProdPrompt Demo.env .random vars being (.inl c!"colors") := fun vars being =>
    .text (by simp) rfl (.cmd (by simp) (.lit (by simp [nest, Cmd.method])))
  have hlang : ∀ vars wc, LangPrompt Demo.env vars (.inl c!"colors") wc → wc = c!"colors" := by
    intro vars wc h
    cases h with
    | text _ hp hl => cases hp; cases hl; rfl
  have hval : ∀ items, Values Demo.env c!"colors" items →
      items = [⟨c!"red", none⟩, ⟨c!"blue", none⟩] := by
    rintro items ⟨w, w', h⟩
    cases h; rfl
  refine .cmd rfl (.cmd (by simp) (.seq (by simp [nest, Cmd.method]) (by simp) ?_))
  intro toks' new hA c hc
  cases hA with
  | tok h _ => exact absurd rfl (h _ _ _ _)
  | set hv hA =>
    cases hA with
    | tok _ hA =>
      cases hA
      cases hv with
      | plain _ =>
        simp only [List.mem_singleton] at hc
        subst hc
        refine .access (.var (c := .wild (.inl c!"colors") none []) rfl rfl) (by simp) ?_
        refine .cmd (by simp) (.wild (by simp [nest, Cmd.method]) (hpath _ _) ?_ (by simp) ?_ ?_ ?_)
        · intro wc _ w; exact ⟨_, _, rfl⟩
        · intro wc items h1 h2 _ _
          rw [hlang _ _ h1] at h2
          rw [hval _ h2]
          constructor
          · intro i hi
            simp only [List.mem_cons, List.not_mem_nil, or_false] at hi
            rcases hi with rfl | rfl <;> decide +kernel
          · exact ⟨_, List.mem_cons_self .., by decide +kernel⟩
        · intro wc items _ _ _ h; simp [nest, Cmd.method] at h
        · intro wc items i h1 h2 hi
          rw [hlang _ _ h1] at h2
          rw [hval _ h2] at hi
          simp only [List.mem_cons, List.not_mem_nil, or_false] at hi
          rcases hi with rfl | rfl <;>
            exact .text (by simp) rfl (.cmd (by simp) (.lit (by simp [nest, Cmd.method])))

/-- What happens without the hypothesis: `{2$$__missing__}` produces no prompt at all. -/
example : (samplePrompts Demo.env 30 (Demo.ctx .random)
    (.inr (.variant [(.wild (.inl c!"missing") none [], 1)] 2 2 c!"," none)) 3 0).1 = [] := by
  decide +kernel

/-! ## C39 -/

/-- **C39.**  A wildcard (given by a name `p` that parses as itself) without values yields its
wrapped name, forever, in every sampling method. -/
theorem missing_wildcard_echoed (E : Env W) (ctx : Ctx) (p : Str) (m m' : Option Method)
    (vars : List (Str × Cmd)) (hne : p ≠ []) (hp : E.parse p = .ok (.lit p m'))
    (hmiss : ∀ w, ∃ w', E.getValues (squashIf E.ignoreWs p) w = .ok [] w') (k : Nat) (w : W) :
    ∃ N, ∀ fuel ≥ N, (samplePrompts E fuel ctx (.inr (.wild (.inl p) m vars)) k w).1 =
        List.replicate k (squashIf E.ignoreWs (E.toWildcard p)) ∧
      ∃ g w', (samplePrompts E fuel ctx (.inr (.wild (.inl p) m vars)) k w).2 = .limit g w' := by
  have hrep : ∀ (g : Gen) (s : Str), (∀ w, ∃ w' g', NextG E g w (.ok (some (s, g')) w') ∧
      (g' = .rep s ∨ ∃ t, g' = .squash (.rep t) ∧ s = squashWhitespace t)) →
      ∀ k w, Ev fun n => (collect E n k g w).1 = List.replicate k s ∧
        ∃ g2 w2, (collect E n k g w).2 = .limit g2 w2 := by
    intro g s h k
    induction k generalizing g with
    | zero => exact fun w => Ev.of fun n => ⟨rfl, g, w, rfl⟩
    | succ k ih =>
      intro w
      obtain ⟨w', g', h1, h2⟩ := h w
      have h3 : ∀ w, ∃ w' g'', NextG E g' w (.ok (some (s, g'')) w') ∧
          (g'' = .rep s ∨ ∃ t, g'' = .squash (.rep t) ∧ s = squashWhitespace t) := by
        intro w
        rcases h2 with rfl | ⟨t, rfl, rfl⟩
        · exact ⟨w, _, NextG.of_step (Ev.of fun _ => rfl), Or.inl rfl⟩
        · refine ⟨w, .squash (.rep t), NextG.of_step ?_, Or.inr ⟨t, rfl, rfl⟩⟩
          exact Ev.bind (a := some (t, .rep t)) (w1 := w) (f := fun n => _)
            (NextG.of_step (Ev.of fun _ => rfl)) (Ev.of fun _ => rfl)
      refine (Ev.and h1 (ih g' h3 w')).mp fun n ⟨h1, h2⟩ => ?_
      simp only [collect, nextG, h1]
      exact ⟨by rw [h2.1]; rfl, h2.2⟩
  have hfirst : ∀ ctx w, Ev fun n => (recs E n).sampleFirst E ctx (.inl p) w =
      .ok (squashIf E.ignoreWs p) w := by
    intro ctx w
    have hs : sampleGen E ctx (.inl p) = .ok (if E.ignoreWs then
        .squash (.start (ctx.withMethod (effMethod ctx.method m')) (.lit p m'))
        else .start (ctx.withMethod (effMethod ctx.method m')) (.lit p m')) := by
      cases p with
      | nil => exact absurd rfl hne
      | cons a p =>
        simp only [sampleGen, List.isEmpty_cons, Bool.false_eq_true, if_false, hp]
        rw [mkGen_outcome (.target (by simp))]
        rfl
    unfold Recs.sampleFirst
    refine Ev.bind (w1 := w) (f := fun n => _) (Ev.of fun n => by rw [hs]; rfl) ?_
    have hstep : ∃ g', NextG E (.start (ctx.withMethod (effMethod ctx.method m')) (.lit p m')) w
        (.ok (some (p, g')) w) := by
      cases hm : (ctx.withMethod (effMethod ctx.method m')).method with
      | comb => exact ⟨.done, NextG.of_step (Ev.of fun _ => by simp [stepG, hm])⟩
      | random => exact ⟨.rep p, NextG.of_step (Ev.of fun _ => by simp [stepG, hm])⟩
      | cyc => exact ⟨.rep p, NextG.of_step (Ev.of fun _ => by simp [stepG, hm])⟩
    obtain ⟨g', hstep⟩ := hstep
    by_cases hw : E.ignoreWs = true
    · simp only [hw, if_true, squashIf]
      refine Ev.bind (a := (squashWhitespace p, .squash g')) (w1 := w) (f := fun n => _) ?_
        (Ev.of fun _ => rfl)
      refine Ev.bind (a := some (squashWhitespace p, .squash g')) (w1 := w) (f := fun n => _)
        (NextG.of_step ?_) (Ev.of fun _ => rfl)
      exact Ev.bind (f := fun n => _) hstep (Ev.of fun _ => rfl)
    · simp only [hw, Bool.false_eq_true, if_false, squashIf]
      refine Ev.bind (a := (p, g')) (w1 := w) (f := fun n => _) ?_ (Ev.of fun _ => rfl)
      exact Ev.bind (f := fun n => _) hstep (Ev.of fun _ => rfl)
  have hstart : ∀ ctx w, ∃ w', NextG E (.start ctx (.wild (.inl p) m vars)) w
      (.ok (some (E.toWildcard p, .rep (E.toWildcard p))) w') := by
    intro ctx w
    obtain ⟨w', hv⟩ := hmiss w
    refine ⟨w', NextG.of_step ?_⟩
    refine Ev.bind (a := .rep (E.toWildcard p)) (w1 := w') (f := fun n => _) ?_
      (NextG.of_step (Ev.of fun _ => rfl))
    exact Ev.bind (f := fun n => _) (hfirst ctx w) (Ev.bind (f := fun n => _) (Ev.of fun _ => hv)
      (Ev.of fun _ => rfl))
  have hmk : mkGen E.unknown ctx (.wild (.inl p) m vars) =
      .ok (.start (ctx.withMethod (effMethod ctx.method m)) (.wild (.inl p) m vars)) :=
    mkGen_outcome (.target (by simp))
  unfold samplePrompts sampleGen
  simp only [Cmd.truthy, Bool.not_true, Bool.false_eq_true, if_false, hmk]
  by_cases hw : E.ignoreWs = true
  · simp only [hw, if_true, squashIf]
    refine hrep _ _ (fun w => ?_) k w
    obtain ⟨w', hs⟩ := hstart (ctx.withMethod (effMethod ctx.method m)) w
    refine ⟨w', .squash (.rep (E.toWildcard p)), NextG.of_step ?_, Or.inr ⟨_, rfl, rfl⟩⟩
    exact Ev.bind (f := fun n => _) hs (Ev.of fun _ => rfl)
  · simp only [hw, Bool.false_eq_true, if_false, squashIf]
    refine hrep _ _ (fun w => ?_) k w
    obtain ⟨w', hs⟩ := hstart (ctx.withMethod (effMethod ctx.method m)) w
    exact ⟨w', _, hs, Or.inl rfl⟩

/-- Non-vacuity. -/
example : (samplePrompts Demo.env 30 (Demo.ctx .comb)
    (.inr (.wild (.inl c!"missing") none [])) 3 0).1 =
      [c!"__missing__", c!"__missing__", c!"__missing__"] := by decide +kernel

end Verif.Props
