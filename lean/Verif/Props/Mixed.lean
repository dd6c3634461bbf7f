import Verif.Proofs.Mixed
import Verif.Props.Counting
/-!
# C87 parts marked cyclical keep their step
-/

namespace Verif.Props
open Verif Spec
variable {W : Type}

/-- **C87** (random and cyclical sequences).  In a sequence sampled randomly or cyclically (by the
default method `M` or its own), prompt `i` shows text number `i` of every token marked cyclical,
whatever the random source does and whatever the other tokens are; the other tokens show one of their
texts.  `k` prompts are produced.  The variables are bound once, before the first prompt
(`Spec.Assigned`). -/
theorem cyclical_parts_keep_step (E : Env W) (M : Method) (vars : List (Str × Cmd)) (being : List Str)
    (toks : List Cmd) (sep : Str) (m : Option Method) (f : List (Str × Cmd) → Cmd → Nat → Str)
    (hM : nest M m ≠ .comb) (hne : toks ≠ [])
    (himm : ∀ n v o, .assign n v true o ∈ toks → Prod E (nest M m) vars being v)
    (hcyc : ∀ toks' new, Assigned E vars toks toks' new → ∀ c, c ∈ toks' → c.method = some .cyc →
      Cycles E (new ++ vars) being c (f new c))
    (hoth : ∀ toks' new, Assigned E vars toks toks' new → ∀ c, c ∈ toks' → c.method ≠ some .cyc →
      Prod E (nest M m) (new ++ vars) being c) (k : Nat) (w : W) :
    ∃ toks' new, Assigned E vars toks toks' new ∧ ∃ N, ∀ fuel ≥ N,
      (samplePrompts E fuel ⟨M, vars, being⟩ (.inr (.seq toks sep m)) k w).1.length = k ∧
      ∀ i s, (samplePrompts E fuel ⟨M, vars, being⟩ (.inr (.seq toks sep m)) k w).1[i]? = some s →
        ∃ strs, ShowsAt E (new ++ vars) (f new) i toks' strs ∧
          s = squashIf E.ignoreWs (joined sep strs) := by
  classical
  have htr : (Cmd.seq toks sep m).truthy = true := by
    cases toks with
    | nil => exact absurd rfl hne
    | cons => rfl
  obtain ⟨⟨toks', new⟩, w1, h1⟩ := assigns_live (ctx := ⟨nest M m, vars, being⟩)
    (fun n v o hmem => prod_live (himm n v o hmem)) w
  obtain ⟨N0, hN0⟩ := id h1
  have hA : Assigned E vars toks toks' new := assigns_good (recs_good E N0) (hN0 N0 (Nat.le_refl _))
  let Q : Cmd → Nat → Str → Prop := fun c j x =>
    if c.method = some .cyc then x = f new c j else Lang E (new ++ vars) c x
  have hflow : ∀ c ∈ toks', ∃ g, mkGen E.unknown ⟨nest M m, new ++ vars, being⟩ c = .ok g ∧
      FlowsAt E (Q c) 0 g := by
    intro c hc
    by_cases hcy : c.method = some .cyc
    · obtain ⟨g, hg, hs⟩ := cycles_streams (hcyc toks' new hA c hc hcy)
      refine ⟨g, by rw [mkGen_marked_cyc hcy, hg], (FlowsAt.of_streams hs).mono fun i v hv => ?_⟩
      simp only [Q, hcy, if_true]; exact hv
    · obtain ⟨g, hg, hl⟩ := prod_live (hoth toks' new hA c hc hcy)
      refine ⟨g, hg, (FlowsAt.of_liveIn (Q := Lang E (new ++ vars) c) ⟨hl, _, _, mkGen_GOk hg⟩ 0).mono
        fun i v hv => ?_⟩
      simp only [Q, hcy, if_false]; exact hv
  obtain ⟨gs, hgs, hfl⟩ : ∃ gs, mkGens E.unknown ⟨nest M m, new ++ vars, being⟩ toks' = .ok gs ∧
      List.Forall₂ (fun Q g => FlowsAt E Q 0 g) (toks'.map Q) gs := by
    clear hA hcyc hoth h1 hN0
    induction toks' with
    | nil => exact ⟨[], rfl, .nil⟩
    | cons c cs ih =>
      obtain ⟨gs, h2, h3⟩ := ih fun c hc => hflow c (by simp [hc])
      obtain ⟨g, h4, h5⟩ := hflow c (by simp)
      exact ⟨g :: gs, by simp [mkGens, h2, h4], .cons h5 h3⟩
  have hstart : Ev fun n => startG E (recs E n) ⟨nest M m, vars, being⟩ (.seq toks sep m) w =
      .ok (.seqNF sep gs) w1 := by
    refine Ev.bind (f := fun n => _) h1 (Ev.of fun n => ?_)
    have hgs' : mkGens E.unknown (Ctx.withVars ⟨nest M m, vars, being⟩ new) toks' = .ok gs := hgs
    revert hgs'
    generalize hMm : nest M m = M' at hM
    intro hgs'
    cases M' with
    | comb => exact absurd rfl hM
    | random => dsimp only; rw [hgs']; rfl
    | cyc => dsimp only; rw [hgs']; rfl
  have hmk : mkGen E.unknown ⟨M, vars, being⟩ (.seq toks sep m) =
      .ok (.start ⟨nest M m, vars, being⟩ (.seq toks sep m)) := by
    rw [mkGen_outcome (ctx := ⟨M, vars, being⟩) (.target (by simp))]
    simp only [outcomeGen, effMethod_eq_nest]
    rfl
  have hsg : sampleGen E ⟨M, vars, being⟩ (.inr (.seq toks sep m)) = .ok (if E.ignoreWs then
      .squash (.start ⟨nest M m, vars, being⟩ (.seq toks sep m)) else
      .start ⟨nest M m, vars, being⟩ (.seq toks sep m)) := by simp [sampleGen, htr, hmk]
  have hconv : ∀ i strs, List.Forall₂ (fun (Q : Nat → Str → Prop) v => Q i v) (toks'.map Q) strs →
      ShowsAt E (new ++ vars) (f new) i toks' strs := by
    intro i
    clear hA hcyc hoth h1 hN0 hflow hgs hfl
    induction toks' with
    | nil => intro strs h; cases h; exact .nil
    | cons c cs ih =>
      intro strs h
      cases h with | cons h1 h2 =>
      have h3 := ih _ h2
      by_cases hcy : c.method = some .cyc
      · simp only [Q, hcy, if_true] at h1
        rw [h1]
        exact .cyclical hcy h3
      · simp only [Q, hcy, if_false] at h1
        exact .other hcy h1 h3
  refine ⟨toks', new, hA, ?_⟩
  simp only [samplePrompts, hsg]
  cases k with
  | zero => exact ⟨0, fun fuel _ => ⟨rfl, by simp [collect]⟩⟩
  | succ k =>
    obtain ⟨v, g', w', h2, h3, h4⟩ := (flows_seqNF (sep := sep) hfl).out w1
    have h5 : NextG E (.start ⟨nest M m, vars, being⟩ (.seq toks sep m)) w (.ok (some (v, g')) w') :=
      NextG.of_step (Ev.bind (f := fun n => _) hstart h2)
    have h6 : NextG E (if E.ignoreWs then
        .squash (.start ⟨nest M m, vars, being⟩ (.seq toks sep m)) else
        .start ⟨nest M m, vars, being⟩ (.seq toks sep m)) w
        (.ok (some (squashIf E.ignoreWs v, if E.ignoreWs then .squash g' else g')) w') := by
      cases E.ignoreWs
      · simpa [squashIf] using h5
      · exact NextG.of_step (Ev.bind (f := fun n => _) h5 (Ev.of fun _ => rfl))
    obtain ⟨N, hN⟩ := Ev.and h6 (h4.squashIf.collect k w')
    refine ⟨N, fun fuel hf => ?_⟩
    obtain ⟨h7, h8, h9⟩ := hN fuel hf
    simp only [collect, nextG, h7]
    refine ⟨by simp [h8], fun i s hi => ?_⟩
    cases i with
    | zero =>
      simp only [List.getElem?_cons_zero, Option.some.injEq] at hi
      obtain ⟨strs, h10, rfl⟩ := h3
      exact ⟨strs, hconv 0 strs h10, hi.symm⟩
    | succ i =>
      obtain ⟨x, ⟨strs, h10, rfl⟩, rfl⟩ := h9 i s (by simpa using hi)
      refine ⟨strs, hconv _ strs ?_, rfl⟩
      rwa [show 0 + 1 + i = i + 1 by omega] at h10

/-- **C87** (combinatorial sequences).  In a combinatorially sampled sequence there is one prompt per
combination of the texts of the finite tokens, in order; prompt `i` shows the texts of combination
`i`, and every token marked cyclical at its position `i` (equal cyclical tokens draw from one stream
in turn, see `Spec.ShowsCombination`).  This holds whatever the random source does. -/
theorem cyclical_parts_of_combinations (E : Env W) (vars : List (Str × Cmd)) (being : List Str)
    (toks toks' : List Cmd) (new : List (Str × Cmd)) (sep : Str) (m : Option Method)
    (texts : Cmd → List Str) (f : Cmd → Nat → Str) (hm : Finite m) (hne : toks ≠ [])
    (hA : ListsAssigned E vars being toks toks' new)
    (hfin : ∀ c ∈ toks', Finite c.method → Lists E (new ++ vars) being c (texts c))
    (hone : ∀ c ∈ toks', c.method = none → texts c ≠ [])
    (hcyc : ∀ c ∈ toks', c.method = some .cyc → Cycles E (new ++ vars) being c (f c))
    (hran : ∀ c ∈ toks', c.method = some .random → Prod E .comb (new ++ vars) being c) (w : W) :
    ∃ outs : List Str,
      outs.length = (product ((toks'.filter finiteTok).map texts)).length ∧
      (∀ i t s, (product ((toks'.filter finiteTok).map texts))[i]? = some t → outs[i]? = some s →
        ∃ strs, ShowsCombination E (new ++ vars) f toks' i toks' t strs ∧
          s = squashIf E.ignoreWs (joined sep ([] :: strs ++ [[]]))) ∧
      ∃ N, ∀ fuel ≥ N, ∀ k,
        (samplePrompts E fuel ⟨.comb, vars, being⟩ (.inr (.seq toks sep m)) k w).1 = outs.take k ∧
        (outs.length < k → ∃ w',
          (samplePrompts E fuel ⟨.comb, vars, being⟩ (.inr (.seq toks sep m)) k w).2 = .stop w') := by
  classical
  let Q : Cmd → Nat → Str → Prop := fun c j x =>
    if c.method = some .cyc then x = f c j else Lang E (new ++ vars) c x
  let o : Cmd → Option (List Str) := fun c => if finiteTok c then some (texts c) else none
  have hft : ∀ c : Cmd, finiteTok c = true ↔ Finite c.method := by
    intro c; simp [finiteTok, Finite]
  have hflow : ∀ c ∈ toks', c.ownNonfinite → ∃ g, mkGen E.unknown ⟨.comb, new ++ vars, being⟩ c = .ok g ∧
      FlowsAt E (Q c) 0 g := by
    intro c hc hn
    by_cases hcy : c.method = some .cyc
    · obtain ⟨g, hg, hs⟩ := cycles_streams (hcyc c hc hcy)
      refine ⟨g, by rw [mkGen_marked_cyc hcy, hg], (FlowsAt.of_streams hs).mono fun i v hv => ?_⟩
      simp only [Q, hcy, if_true]; exact hv
    · have hr : c.method = some .random := by
        rcases hn with h | h
        · exact h
        · exact absurd h hcy
      obtain ⟨g, hg, hl⟩ := prod_liveIn (hran c hc hr)
      refine ⟨g, hg, (FlowsAt.of_liveIn hl 0).mono fun i v hv => ?_⟩
      simp only [Q, hcy, if_false]; exact hv
  have hcoll := fun w => mkColl_at (E := E) (Q := Q) (ctx := ⟨.comb, new ++ vars, being⟩)
    (cs := toks'.filter (fun c => c.method ≠ some .comb)) (by
      intro c hc
      obtain ⟨hc, hm'⟩ := List.mem_filter.1 hc
      by_cases hn : c.ownNonfinite
      · obtain ⟨g, hg, h⟩ := hflow c hc hn
        exact ⟨g, hg, fun _ => h, fun h' => absurd hn h'⟩
      · have hnone : c.method = none := by
          cases hmm : c.method with
          | none => rfl
          | some x =>
            cases x with
            | comb => simp [hmm] at hm'
            | random => exact absurd (Or.inl hmm) hn
            | cyc => exact absurd (Or.inr hmm) hn
        obtain ⟨g, hg, hy⟩ := lists_Yx (hfin c hc (Or.inl hnone))
        refine ⟨g, hg, fun h => absurd h hn, fun _ => ?_⟩
        cases ht : texts c with
        | nil => exact absurd ht (hone c hc hnone)
        | cons x xs => rw [ht] at hy; exact ⟨_, _, hy⟩) w
  have htok : ∀ cs : List Cmd, (∀ c ∈ cs, c ∈ toks') → List.Forall₂ (TokAt E (CollAt E Q
      (toks'.filter (fun c => c.method ≠ some .comb))) Q ⟨.comb, new ++ vars, being⟩) cs (cs.map o) := by
    intro cs hcs
    rw [List.forall₂_map_right_iff]
    refine List.forall₂_same.2 fun c hc => ?_
    have hc' := hcs c hc
    by_cases hf : Finite c.method
    · simp only [o, (hft c).2 hf, if_true, TokAt]
      exact ⟨effective_finite hf rfl, lists_Yx (hfin c hc' hf)⟩
    · have hff : finiteTok c = false := by
        cases h : finiteTok c
        · rfl
        · exact absurd ((hft c).1 h) hf
      have hn : c.ownNonfinite := by
        cases hmm : c.method with
        | none => exact absurd (Or.inl hmm) hf
        | some x =>
          cases x with
          | comb => exact absurd (Or.inr hmm) hf
          | random => exact Or.inl hmm
          | cyc => exact Or.inr hmm
      simp only [o, hff, Bool.false_eq_true, if_false, TokAt]
      refine ⟨?_, givesAt_coll (List.mem_filter.2 ⟨hc', ?_⟩) hn⟩
      · unfold Ctx.effective
        rcases hn with hn | hn <;> simp [hn, Method.nonfinite]
      · rcases hn with hn | hn <;> simp [hn]
  have hsent : TokAt E (CollAt E Q (toks'.filter (fun c => c.method ≠ some .comb))) Q
      ⟨.comb, new ++ vars, being⟩ sentinel (some [[]]) :=
    ⟨rfl, _, rfl, fun w => ⟨[], .done, w, NextG.of_step (Ev.of fun _ => rfl), rfl,
      fun w => ⟨w, NextG.of_step (Ev.of fun _ => rfl)⟩⟩⟩
  have hzs := PZS.start (forall2_snoc (.cons hsent (htok toks' fun _ h => h)) hsent)
  have hlen : toks'.length = (toks'.map o).length := by simp
  have hrel := prodZ_rel (Q := Q) (cs := sentinel :: toks' ++ [sentinel])
    (oss := (some [[]] :: toks'.map o) ++ [some [[]]]) (by simp)
  obtain ⟨g, hg, hy⟩ : ∃ g, mkGen E.unknown ⟨.comb, vars, being⟩ (.seq toks sep m) = .ok g ∧ PY E
      (fromZ (takes (sentinel :: toks' ++ [sentinel]) ((some [[]] :: toks'.map o) ++ [some [[]]])) sep
        (fun _ => 0) (prodZ Q (sentinel :: toks' ++ [sentinel])
          ((some [[]] :: toks'.map o) ++ [some [[]]]))) g := by
    refine mkGen_PY_of_start (by simp) (by simp) hm (PY.start (by simp) fun w => ?_)
    obtain ⟨w1, h1⟩ := listsAssigned_Yx hA w
    obtain ⟨coll, w2, h2, h3⟩ := hcoll w1
    refine ⟨.combSeq sep coll (.start ⟨.comb, new ++ vars, being⟩ (sentinel :: toks' ++ [sentinel])), w2,
      ?_, PZS.combSeq h3 hzs⟩
    refine Ev.bind (f := fun n => _) h1 ?_
    exact Ev.bind (f := fun n => _) h2 (Ev.of fun _ => rfl)
  have hprod : product (((some [[]] :: toks'.map o) ++ [some [[]]]).filterMap id) =
      (product ((toks'.filter finiteTok).map texts)).map fun t => [] :: t ++ [[]] := by
    rw [← product_pad']
    congr 1
    simp only [List.cons_append, List.filterMap_cons, List.filterMap_append, id, List.filterMap_nil]
    congr 2
    clear hsent hzs hrel hg hy htok hlen hcoll hflow hran hcyc hone hfin hA
    induction toks' with
    | nil => rfl
    | cons c cs ih =>
      by_cases hc : finiteTok c = true
      · simp [o, hc] at ih ⊢; exact ih
      · simp [o, hc] at ih ⊢; exact ih
  have htakes : ∀ c, ¬ Finite c.method → takes (sentinel :: toks' ++ [sentinel])
      ((some [[]] :: toks'.map o) ++ [some [[]]]) c = toks'.count c := by
    intro c hc
    simp only [List.cons_append, takes]
    rw [takes_snoc hlen, takes_count]
    have : ¬ finiteTok c = true := fun h => hc ((hft c).1 h)
    simp only [o, if_neg this]
  have hconv : ∀ i cs t strs, (∀ c ∈ cs, c ∈ toks') → RelZ Q (fun c => i * takes (sentinel :: toks' ++ [sentinel])
      ((some [[]] :: toks'.map o) ++ [some [[]]]) c) cs (cs.map o) t strs →
      ShowsCombination E (new ++ vars) f toks' i cs t strs := by
    intro i cs
    induction cs with
    | nil => intro t strs _ h; cases h; exact .nil
    | cons c cs ih =>
      intro t strs hcs h
      by_cases hf : Finite c.method
      · have : o c = some (texts c) := by simp only [o, (hft c).2 hf, if_true]
        rw [List.map_cons, this] at h
        cases h with | fin h => exact .finite hf (ih _ _ (fun c hc => hcs c (by simp [hc])) h)
      · have : o c = none := by
          have : ¬ finiteTok c = true := fun h => hf ((hft c).1 h)
          simp only [o, if_neg this]
        rw [List.map_cons, this] at h
        cases h with | nf h1 h =>
        have h' := ih _ _ (fun c hc => hcs c (by simp [hc])) h
        rw [htakes c hf, takes_count this] at h1
        by_cases hcy : c.method = some .cyc
        · simp only [Q, hcy, if_true] at h1
          rw [h1]
          exact .cyclical hcy h'
        · simp only [Q, hcy, if_false] at h1
          refine .random ?_ h1 h'
          cases hmm : c.method with
          | none => exact absurd (Or.inl hmm) hf
          | some x =>
            cases x with
            | comb => exact absurd (Or.inr hmm) hf
            | random => rfl
            | cyc => exact absurd hmm hcy
  have htr : (Cmd.seq toks sep m).truthy = true := by
    cases toks with
    | nil => exact absurd rfl hne
    | cons => rfl
  obtain ⟨outs', h1, N, hN⟩ := PY.collect (PY.squashIf hy) w
  rw [List.forall₂_map_left_iff] at h1
  obtain ⟨outs0, h2, h3⟩ : ∃ outs0, List.Forall₂ (fun (p : Str → Prop) s => p s)
      (fromZ (takes (sentinel :: toks' ++ [sentinel]) ((some [[]] :: toks'.map o) ++ [some [[]]])) sep
        (fun _ => 0) (prodZ Q (sentinel :: toks' ++ [sentinel])
          ((some [[]] :: toks'.map o) ++ [some [[]]]))) outs0 ∧
      outs' = outs0.map (squashIf E.ignoreWs) := by
    clear hN hy
    generalize fromZ _ _ _ _ = L at h1
    induction h1 with
    | nil => exact ⟨[], .nil, rfl⟩
    | cons h _ ih =>
      obtain ⟨x, hx, rfl⟩ := h
      obtain ⟨l, hl, rfl⟩ := ih
      exact ⟨x :: l, .cons hx hl, rfl⟩
  subst h3
  obtain ⟨h4, h5⟩ := forall2_fromZ hrel h2
  rw [hprod] at h4 h5
  refine ⟨outs0.map (squashIf E.ignoreWs), by simpa using h4, ?_, N, fun fuel hf k => ?_⟩
  · intro i t s ht hs
    rw [List.getElem?_map] at hs
    obtain ⟨s0, hs0, rfl⟩ := Option.map_eq_some_iff.1 hs
    obtain ⟨strs, h6, rfl⟩ := h5 i ([] :: t ++ [[]]) s0 (by rw [List.getElem?_map, ht]; rfl) hs0
    simp only [List.cons_append] at h6
    cases h6 with | fin h6 =>
    obtain ⟨strs', rfl, h7⟩ := h6.snoc_inv hlen
    refine ⟨strs', hconv i toks' t strs' (fun _ h => h) ?_, rfl⟩
    simpa using h7
  · have hg' : sampleGen E ⟨.comb, vars, being⟩ (.inr (.seq toks sep m)) =
        .ok (if E.ignoreWs then .squash g else g) := by simp [sampleGen, htr, hg]
    simp only [samplePrompts, hg']
    exact ⟨(hN fuel hf).1 k, (hN fuel hf).2 k⟩

/-! ### Two parts, as in the documentation -/

theorem cycles_marked {E : Env W} {vars : List (Str × Cmd)} {being : List Str} {opts : List (Cmd × Rat)}
    {lo hi : Int} {sep : Str} {f : Nat → Str} (h : Cycles E vars being (.variant opts lo hi sep none) f) :
    Cycles E vars being (.variant opts lo hi sep (some .cyc)) f := by
  cases h with
  | variant f _ h1 h2 h3 h4 => exact .variant f (by simp) h1 h2 h3 h4
  | variantWild _ h1 h2 h3 h4 => exact .variantWild (by simp) h1 h2 h3 h4

/-- **C87**, a random part and a cyclical part: `c mid {@b1|...|bn}` sampled randomly goes through
`b1, ..., bn` in order, again and again, whatever is drawn for `c`. -/
theorem random_beside_cyclical (E : Env W) (vars : List (Str × Cmd)) (being : List Str) (c : Cmd)
    (hc : Prod E .random vars being c) (hcm : c.method ≠ some .cyc) (mid sep : Str)
    (bs : List (Str × Rat)) (hb : bs ≠ []) (k : Nat) (w : W) :
    ∃ N, ∀ fuel ≥ N,
      (samplePrompts E fuel ⟨.random, vars, being⟩ (.inr (.seq [c, .lit mid none,
        .variant (literals bs) 1 1 sep (some .cyc)] [] none)) k w).1.length = k ∧
      ∀ i s, (samplePrompts E fuel ⟨.random, vars, being⟩ (.inr (.seq [c, .lit mid none,
        .variant (literals bs) 1 1 sep (some .cyc)] [] none)) k w).1[i]? = some s →
        ∃ a, Lang E vars c a ∧
          s = squashIf E.ignoreWs (a ++ mid ++ (bs.map (·.1)).getD (i % bs.length) []) := by
  have hna : ∀ n v i o, c ≠ .assign n v i o := by
    rintro n v i o rfl
    cases hc with | cmd _ h => cases h
  have hA : ∀ toks' new, Assigned E vars [c, .lit mid none, .variant (literals bs) 1 1 sep (some .cyc)]
      toks' new → toks' = [c, .lit mid none, .variant (literals bs) 1 1 sep (some .cyc)] ∧ new = [] := by
    intro toks' new h
    cases h with
    | set _ h => exact absurd rfl (hna _ _ _ _)
    | tok _ h =>
      cases h with | tok _ h => cases h with | tok _ h => cases h; exact ⟨rfl, rfl⟩
  obtain ⟨toks', new, h1, N, h2⟩ := cyclical_parts_keep_step E .random vars being
    [c, .lit mid none, .variant (literals bs) 1 1 sep (some .cyc)] [] none
    (fun _ _ k => (bs.map (·.1)).getD (k % bs.length) []) (by simp [nest]) (by simp)
    (by
      intro n v o h
      simp only [List.mem_cons, List.not_mem_nil, or_false, reduceCtorEq] at h
      exact absurd h.symm (hna _ _ _ _))
    (by
      intro toks' new h c' hc' hm'
      obtain ⟨rfl, rfl⟩ := hA _ _ h
      simp only [List.mem_cons, List.not_mem_nil, or_false] at hc'
      rcases hc' with rfl | rfl | rfl
      · exact absurd hm' hcm
      · simp [Cmd.method] at hm'
      · exact cycles_marked (cycles_literals E _ being bs hb sep))
    (by
      intro toks' new h c' hc' hm'
      obtain ⟨rfl, rfl⟩ := hA _ _ h
      simp only [List.mem_cons, List.not_mem_nil, or_false] at hc'
      rcases hc' with rfl | rfl | rfl
      · exact hc
      · exact .cmd (by simp) (.lit (by simp [nest, Cmd.method]))
      · simp [Cmd.method] at hm') k w
  obtain ⟨rfl, rfl⟩ := hA _ _ h1
  refine ⟨N, fun fuel hf => ⟨(h2 fuel hf).1, fun i s hi => ?_⟩⟩
  obtain ⟨strs, h3, rfl⟩ := (h2 fuel hf).2 i s hi
  cases h3 with
  | cyclical h => exact absurd h hcm
  | other _ ha h3 =>
    cases h3 with
    | cyclical h => simp [Cmd.method] at h
    | other _ hl h3 =>
      cases hl
      cases h3 with
      | other h => simp [Cmd.method] at h
      | cyclical _ h3 =>
        cases h3
        exact ⟨_, ha, by simp [joined_nil_sep]⟩

/-- **C87**, a combinatorial part and a cyclical part: `c mid {@b1|...|bn}` sampled combinatorially
gives the texts of `c` in order, once each, with `b1, ..., bn` in order, again and again. -/
theorem combinatorial_beside_cyclical (E : Env W) (vars : List (Str × Cmd)) (being : List Str) (c : Cmd)
    (outs : List Str) (hc : Lists E vars being c outs) (hne : outs ≠ []) (mid sep : Str)
    (bs : List (Str × Rat)) (hb : bs ≠ []) (w : W) :
    ∃ N, ∀ fuel ≥ N, ∀ k,
      (samplePrompts E fuel ⟨.comb, vars, being⟩ (.inr (.seq [c, .lit mid none,
        .variant (literals bs) 1 1 sep (some .cyc)] [] none)) k w).1 =
      (outs.mapIdx fun i a =>
        squashIf E.ignoreWs (a ++ mid ++ (bs.map (·.1)).getD (i % bs.length) [])).take k := by
  have hfm := lists_finite hc
  have hna : ∀ n v i o, c ≠ .assign n v i o := by
    rintro n v i o rfl
    cases hc
  have hcl : ∀ c', c' ∈ [c, .lit mid none, .variant (literals bs) 1 1 sep (some .cyc)] →
      Finite c'.method → c' ≠ c → c' = .lit mid none := by
    intro c' hc' hf hn
    simp only [List.mem_cons, List.not_mem_nil, or_false] at hc'
    rcases hc' with rfl | rfl | rfl
    · exact absurd rfl hn
    · rfl
    · rcases hf with h | h <;> simp [Cmd.method] at h
  obtain ⟨outs', h1, h2, N, h3⟩ := cyclical_parts_of_combinations E vars being
    [c, .lit mid none, .variant (literals bs) 1 1 sep (some .cyc)]
    [c, .lit mid none, .variant (literals bs) 1 1 sep (some .cyc)] [] [] none
    (fun c' => if c' = c then outs else [mid]) (fun _ k => (bs.map (·.1)).getD (k % bs.length) [])
    (Or.inl rfl) (by simp) (.tok hna (.tok (by simp) (.tok (by simp) .nil)))
    (by
      intro c' hc' hf
      by_cases hn : c' = c
      · subst hn; simpa using hc
      · rw [if_neg hn, hcl c' hc' hf hn]; exact .lit (Or.inl rfl))
    (by
      intro c' _ _
      split
      · exact hne
      · simp)
    (by
      intro c' hc' hm'
      simp only [List.mem_cons, List.not_mem_nil, or_false] at hc'
      rcases hc' with rfl | rfl | rfl
      · rcases hfm with h | h <;> simp [h] at hm'
      · simp [Cmd.method] at hm'
      · exact cycles_marked (cycles_literals E _ being bs hb sep))
    (by
      intro c' hc' hm'
      simp only [List.mem_cons, List.not_mem_nil, or_false] at hc'
      rcases hc' with rfl | rfl | rfl
      · rcases hfm with h | h <;> simp [h] at hm'
      · simp [Cmd.method] at hm'
      · simp [Cmd.method] at hm') w
  have hmid : (if Cmd.lit mid none = c then outs else [mid]) = [mid] := by
    split
    · rename_i h
      subst h
      cases hc; rfl
    · rfl
  have hfilt : ([c, .lit mid none, .variant (literals bs) 1 1 sep (some .cyc)].filter finiteTok) =
      [c, .lit mid none] := by
    have h4 : finiteTok c = true := by simpa [finiteTok, Finite] using hfm
    have h5 : finiteTok (.lit mid none) = true := rfl
    have h6 : finiteTok (.variant (literals bs) 1 1 sep (some .cyc)) = false := rfl
    simp [h4, h5, h6]
  have hprod : product ([c, .lit mid none].map fun c' => if c' = c then outs else [mid]) =
      outs.map fun a => [a, mid] := by
    simp only [List.map_cons, List.map_nil, if_true, hmid, product]
    simp only [List.flatMap_cons, List.flatMap_nil, List.map_cons, List.map_nil, List.append_nil]
    exact List.map_eq_flatMap.symm
  rw [hfilt, hprod] at h1 h2
  have heq : outs' = outs.mapIdx fun i a =>
      squashIf E.ignoreWs (a ++ mid ++ (bs.map (·.1)).getD (i % bs.length) []) := by
    have hl : outs'.length = outs.length := by simpa using h1
    refine List.ext_getElem (by simpa using hl) fun i hi hi' => ?_
    have hi2 : i < outs.length := by omega
    obtain ⟨strs, h4, h5⟩ := h2 i [outs[i], mid] outs'[i] (by simp [List.getElem?_eq_getElem hi2])
      (List.getElem?_eq_getElem hi)
    rw [h5]
    simp only [List.getElem_mapIdx]
    cases h4 with
    | cyclical h => rcases hfm with h' | h' <;> simp [h'] at h
    | random h => rcases hfm with h' | h' <;> simp [h'] at h
    | finite _ h4 =>
      cases h4 with
      | cyclical h => simp [Cmd.method] at h
      | random h => simp [Cmd.method] at h
      | finite _ h4 =>
        cases h4 with
        | random h => simp [Cmd.method] at h
        | cyclical _ h4 =>
          cases h4
          have : c ≠ .variant (literals bs) 1 1 sep (some .cyc) := by
            rintro rfl
            rcases hfm with h | h <;> simp [Cmd.method] at h
          simp [joined_nil_sep, this]
  refine ⟨N, fun fuel hf k => ?_⟩
  rw [(h3 fuel hf k).1, heq]

/-- Non-vacuity: `{red|green|blue} {@square|circle}` sampled randomly. -/
example (w : Nat) : ∃ N, ∀ fuel ≥ N, ∀ i s, (samplePrompts Demo.env fuel (Demo.ctx .random)
    (.inr (.seq [.variant (literals [(c!"red", 1), (c!"green", 1), (c!"blue", 1)]) 1 1 c!"," none,
      .lit c!" " none, .variant (literals [(c!"square", 1), (c!"circle", 1)]) 1 1 c!"," (some .cyc)] []
      none)) 9 w).1[i]? = some s →
    ∃ a, s = a ++ c!" " ++ [c!"square", c!"circle"].getD (i % 2) [] := by
  obtain ⟨N, h⟩ := random_beside_cyclical Demo.env [] [] (.variant (literals [(c!"red", 1),
    (c!"green", 1), (c!"blue", 1)]) 1 1 c!"," none) (simple_prod _ (.variant (by simp) (by simp [literals])
      (by simp [literals]) (by
        intro p hp
        obtain ⟨q, _, rfl⟩ := List.mem_map.1 hp
        exact .lit (by simp)) (by simp)) _ _)
    (by simp [Cmd.method]) c!" " c!"," [(c!"square", 1), (c!"circle", 1)] (by simp) 9 w
  refine ⟨N, fun fuel hf i s hi => ?_⟩
  obtain ⟨a, -, h2⟩ := (h fuel hf).2 i s hi
  exact ⟨a, by simpa [squashIf, Demo.env] using h2⟩

/-- The same template sampled combinatorially: three prompts, as documented. -/
example : (samplePrompts Demo.env 40 (Demo.ctx .comb)
    (.inr (.seq [.variant (literals [(c!"red", 1), (c!"green", 1), (c!"blue", 1)]) 1 1 c!"," none,
      .lit c!" " none, .variant (literals [(c!"square", 1), (c!"circle", 1)]) 1 1 c!"," (some .cyc)] []
      none)) 9 0).1 = [c!"red square", c!"green circle", c!"blue square"] := by decide +kernel

/-- Equal cyclical tokens draw from one stream in turn: `{1|2|3}{@a|b|c}{@a|b|c}`. -/
example : (samplePrompts Demo.env 60 (Demo.ctx .comb)
    (.inr (.seq [.variant (literals [(c!"1", 1), (c!"2", 1), (c!"3", 1)]) 1 1 c!"," none,
      .variant (literals [(c!"a", 1), (c!"b", 1), (c!"c", 1)]) 1 1 c!"," (some .cyc),
      .variant (literals [(c!"a", 1), (c!"b", 1), (c!"c", 1)]) 1 1 c!"," (some .cyc)] [] none)) 9 0).1 =
    [c!"1ba", c!"2ac", c!"3cb"] := by decide +kernel

end Verif.Props
