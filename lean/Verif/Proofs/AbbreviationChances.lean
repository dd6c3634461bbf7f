import Verif.Proofs.Abbreviations
/-!
# Proofs about variables as abbreviations: random and cyclical sampling
-/

namespace Verif
open Spec
variable {W : Type} {E : Env W}

/-! ### At random -/

theorem chancePrompt_name {vars : List (Str × Cmd)} {being : List Str} {name : Str} {P : Distr Str}
    (hp : E.parse name = .ok (.lit name none)) (h : ChancePrompt E vars being (.inl name) P) :
    ∀ x ∈ P, x.1 = squashIf E.ignoreWs name := by
  cases h with
  | text h1 h2 h3 =>
    rw [hp] at h2
    cases h2
    cases h3 with
    | cmd _ h3 =>
      cases h3
      intro x hx
      simp only [Distr.map, Distr.sure, List.map_cons, List.map_nil, List.mem_singleton] at hx
      rw [hx]
      rfl

mutual
theorem chance_noVariables [Inhabited W] {vars : List (Str × Cmd)} {being : List Str} {c : Cmd} {P : Distr Str} (V : List (Str × Cmd))
    (B : List Str) : Chance E vars being c P → NoVariables E c → Chance E V B c P
  | .cmd h1 h2, h => .cmd h1 (chanceIn_noVariables V B h2 h)
  | .access _ _ _, h => nomatch h
theorem chanceIn_noVariables [Inhabited W] {vars : List (Str × Cmd)} {being : List Str} {c : Cmd} {P : Distr Str} (V : List (Str × Cmd))
    (B : List Str) : ChanceIn E vars being c P → NoVariables E c → ChanceIn E V B c P
  | .lit, _ => .lit
  | .seq (N := N) h1 h2, h => by
      have i2 := fun x hx V => chanceAll_noVariables V B (h2 x hx)
      cases h with
      | seq h =>
        obtain ⟨rfl, rfl⟩ := (chanceAssign_plainly fun c hc => (h c hc).notAssign).1 h1
        exact .seq ((chanceAssign_plainly fun c hc => (h c hc).notAssign).2 ⟨rfl, rfl⟩) fun x hx => i2 x hx _ h
  | .variant h1 h2 h3 h4 h5 h6, h => by
      have i6 := chanceAll_noVariables V B h6
      cases h with
      | variant h => exact .variant h1 h2 h3 h4 h5 (i6 fun c hc => by
          obtain ⟨p, hp, rfl⟩ := List.mem_map.1 hc
          exact h p hp)
  | .variantSingle h1 h2, h => by
      have i2 := chance_noVariables V B h2
      cases h with
      | variant h => exact .variantSingle h1 (i2 (h _ (List.mem_cons_self ..)))
  | .variantWild h2 h3 h4 h5, h => by
      have i2 := chancePrompt_noVariables V B h2
      have i5 := fun x hx => chanceIn_noVariables V B (h5 x hx)
      cases h with
      | variant h =>
        have h := h _ (List.mem_cons_self ..)
        cases h with
        | wild h6 h7 =>
          have h8 := chancePrompt_name h6 h2
          refine .variantWild (i2 fun c hc => ?_) h3 h4 fun x hx => i5 x hx (.mkVariant fun c hc => ?_)
          · rw [h6] at hc; cases hc; exact .lit
          · obtain ⟨y, hy, hc⟩ := (h4 x hx).find c hc
            obtain ⟨i, hi, rfl⟩ := iterateWeighted_content hy
            exact h7 _ ⟨_, _, by rw [← h8 x hx]; exact h3 x hx default⟩ i hi c hc
  | .wild h2 h3 h4 h5 h6, h => by
      have i2 := chancePrompt_noVariables V B h2
      have i6 := fun V x hx i hi => chancePrompt_noVariables V B (h6 x hx i hi)
      cases h with
      | wild h8 h9 =>
        have h10 := chancePrompt_name h8 h2
        refine .wild (i2 fun c hc => ?_) h3 h4 h5 fun x hx i hi => i6 _ x hx i hi fun c hc => ?_
        · rw [h8] at hc; cases hc; exact .lit
        · exact h9 _ ⟨_, _, by rw [← h10 x hx]; exact h3 x hx default⟩ i hi c hc
  | .wildMissing h2 h3, h => by
      have i2 := chancePrompt_noVariables V B h2
      cases h with
      | wild h8 h9 =>
        refine .wildMissing (i2 fun c hc => ?_) h3
        rw [h8] at hc; cases hc; exact .lit
  | .wrap h2 h3, h => by
      have i2 := chance_noVariables V B h2
      have i3 := chance_noVariables V B h3
      cases h with
      | wrap h4 h5 => exact .wrap (i2 h4) (i3 h5)
theorem chanceAll_noVariables [Inhabited W] {vars : List (Str × Cmd)} {being : List Str} {cs : List Cmd} {Ps : List (Distr Str)}
    (V : List (Str × Cmd)) (B : List Str) : ChanceAll E vars being cs Ps → (∀ c ∈ cs, NoVariables E c) → ChanceAll E V B cs Ps
  | .nil, _ => .nil
  | .cons h1 h3, h => .cons (chance_noVariables V B h1 (h _ (List.mem_cons_self ..)))
      (chanceAll_noVariables V B h3 fun c hc => h c (List.mem_cons_of_mem _ hc))
theorem chancePrompt_noVariables [Inhabited W] {vars : List (Str × Cmd)} {being : List Str} {p : Prompt} {P : Distr Str}
    (V : List (Str × Cmd)) (B : List Str) : ChancePrompt E vars being p P →
      (p.elim (fun s => ∀ c, E.parse s = .ok c → NoVariables E c) (NoVariables E)) → ChancePrompt E V B p P
  | .text h1 h2 h3, h => .text h1 h2 (chance_noVariables V B h3 (h _ h2))
  | .cmd h1 h2, h => .cmd h1 (chance_noVariables V B h2 h)
end

theorem bindsLate_chances {vars : List (Str × Cmd)} {being : List Str} {cs toks toks' : List Cmd} {new : List (Str × Cmd)}
    {N : Distr (List (Str × Cmd))} (h : BindsLate vars cs toks new) (h' : ChanceAssign E vars being cs toks' N) :
    toks' = toks ∧ N = .sure new := by
  induction h generalizing toks' N with
  | nil => cases h'; exact ⟨rfl, rfl⟩
  | part h _ ih =>
    cases h' with
    | tok _ h' => obtain ⟨rfl, rfl⟩ := ih h'; exact ⟨rfl, rfl⟩
    | _ => exact absurd rfl (h _ _ _ _)
  | keep h _ ih =>
    cases h' with
    | tok h1 => exact absurd rfl (h1 _ _ _ _)
    | keep h1 h' => obtain ⟨rfl, rfl⟩ := ih h'; rw [h] at h1; cases h1; exact ⟨rfl, rfl⟩
    | plain h1 => simp [h] at h1
    | literal h1 => simp [h] at h1
    | immediate h1 => simp [h] at h1
  | set h _ ih =>
    cases h' with
    | tok h1 => exact absurd rfl (h1 _ _ _ _)
    | keep h1 h' => simp [h1] at h
    | plain _ h' => obtain ⟨rfl, rfl⟩ := ih h'; exact ⟨rfl, rfl⟩
  | text h _ ih =>
    cases h' with
    | tok h1 => exact absurd rfl (h1 _ _ _ _)
    | keep h1 h' => simp [h1] at h
    | literal _ h' => obtain ⟨rfl, rfl⟩ := ih h'; exact ⟨rfl, rfl⟩
    | immediate _ h1 => exact absurd rfl (h1 _ _)

mutual
theorem chance_inlined [Inhabited W] {vars : List (Str × Cmd)} {being : List Str} {c c' : Cmd} {P : Distr Str}
    (V : List (Str × Cmd)) (B : List Str) : Inlined E vars c c' → Chance E vars being c P →
      ∃ P', Chance E V B c' P' ∧ Alike P P'
  | .same h, h' => ⟨P, chance_noVariables V B h' h, .refl _⟩
  | .access h1 h2, h => by
      have ih := fun being P (h : Chance E vars being _ P) => chance_inlined V B h2 h
      cases h with
      | cmd _ h => cases h
      | access h3 h4 h5 =>
        cases h1.unique h3
        exact ih _ _ h5
  | .seq (sep := sep) (rest' := rest') hb hr, h => by
      have ih := fun V being Ps h => chanceAll_inlined (being := being) (Ps := Ps) V B hr h
      cases h with
      | cmd hm h =>
        cases h with
        | seq h2 h3 =>
          obtain ⟨rfl, rfl⟩ := bindsLate_chances hb h2
          obtain ⟨Ps', h4, h5⟩ := ih ([] ++ V) _ _ (h3 _ (List.mem_cons_self ..))
          have h6 : ChanceAssign E V B rest' rest' (.sure []) :=
            (chanceAssign_plainly fun c hc => (inlinedAll_noVariables hr c hc).notAssign).2 ⟨rfl, rfl⟩
          refine ⟨_, .cmd hm (.seq h6 (Ds := fun _ => Ps') fun x hx => ?_), fun F => ?_⟩
          · cases List.mem_singleton.1 hx
            exact h4
          · simp only [mean_bind, mean_sure, mean_map]
            exact Alike.all h5 _
  | .variant (opts := opts) (opts' := opts') (lo := lo) (hi := hi) (sep := sep) hr hn hn' hs, h => by
      have ih := fun being Ps h => chanceOptions_inlined (being := being) (Ps := Ps) V B hr h
      have hlen : opts'.length = opts.length := inlinedOptions_length hr
      have hw := inlinedOptions_weights hr
      cases h with
      | cmd hm h =>
        cases h with
        | @variant _ _ _ _ _ _ m Ds h1 h2 h3 h4 h5 h6 =>
          obtain ⟨Ds1, h7, h8⟩ := ih _ _ h6
          have hmem : ∀ p' ∈ opts', ∃ p ∈ opts, p.2 = p'.2 := by
            intro p' hp'
            have : p'.2 ∈ opts'.map (·.2) := List.mem_map.2 ⟨p', hp', rfl⟩
            rw [hw] at this
            exact List.mem_map.1 this
          refine ⟨_, .cmd hm (.variant (Ds := Ds1) (by omega) h2 ?_ ?_ ?_ h7), ?_⟩
          · intro p' hp'
            obtain ⟨p, hp1, hp2⟩ := hmem p' hp'
            rw [← hp2]; exact h3 p hp1
          · have : total opts' = total opts := by
              unfold total
              rw [← hw]
            rw [this]; exact h4
          · intro hk
            refine ⟨fun p' hp' => ?_, hn', hw ▸ (h5 hk).2.2⟩
            obtain ⟨p, hp1, hp2⟩ := hmem p' hp'
            rw [← hp2]; exact (h5 hk).1 p hp1
          · rw [hw]
            exact variantDist_alike (zip_alike h8 _) (.refl _) lo hi sep
        | variantSingle h1 h2 =>
          obtain ⟨Ds', h3, h4⟩ := ih _ _ (.cons h2 .nil)
          cases hr with
          | cons hc hr =>
            cases hr
            cases h4 with
            | cons h4 h6 =>
              cases h6
              cases h3 with
              | cons h3 _ => exact ⟨_, .cmd hm (.variantSingle hs h3), h4⟩
        | variantWild => exact absurd ⟨_, _, _, _, rfl⟩ (inlined_singleWild hr hs)
  | .wrap hw hi ht ht', h => by
      have i1 := fun being P h => chance_inlined (being := being) (P := P) V B hw h
      have i2 := fun being P h => chance_inlined (being := being) (P := P) V B hi h
      cases h with
      | cmd hm h =>
        cases h with
        | wrap h1 h2 =>
          obtain ⟨P', h3, h4⟩ := i1 _ _ h1
          obtain ⟨Q', h5, h6⟩ := i2 _ _ h2
          exact ⟨_, .cmd hm (.wrap h3 h5), h4.bind fun _ _ => h6.map _⟩
theorem chanceAll_inlined [Inhabited W] {vars : List (Str × Cmd)} {being : List Str} {cs cs' : List Cmd} {Ps : List (Distr Str)}
    (V : List (Str × Cmd)) (B : List Str) : InlinedAll E vars cs cs' → ChanceAll E vars being cs Ps →
      ∃ Ps', ChanceAll E V B cs' Ps' ∧ List.Forall₂ Alike Ps Ps'
  | .nil, h => by cases h; exact ⟨[], .nil, .nil⟩
  | .cons h1 h2, h => by
      have i1 := fun being P h => chance_inlined (being := being) (P := P) V B h1 h
      have i2 := fun being Ps h => chanceAll_inlined (being := being) (Ps := Ps) V B h2 h
      cases h with
      | cons h3 h4 =>
        obtain ⟨P', h5, h6⟩ := i1 _ _ h3
        obtain ⟨Ps', h7, h8⟩ := i2 _ _ h4
        exact ⟨_, .cons h5 h7, .cons h6 h8⟩
theorem chanceOptions_inlined [Inhabited W] {vars : List (Str × Cmd)} {being : List Str} {opts opts' : List (Cmd × Rat)}
    {Ps : List (Distr Str)} (V : List (Str × Cmd)) (B : List Str) : InlinedOptions E vars opts opts' →
      ChanceAll E vars being (opts.map (·.1)) Ps → ∃ Ps', ChanceAll E V B (opts'.map (·.1)) Ps' ∧ List.Forall₂ Alike Ps Ps'
  | .nil, h => by cases h; exact ⟨[], .nil, .nil⟩
  | .cons h1 h2, h => by
      have i1 := fun being P h => chance_inlined (being := being) (P := P) V B h1 h
      have i2 := fun being Ps h => chanceOptions_inlined (being := being) (Ps := Ps) V B h2 h
      cases h with
      | cons h3 h4 =>
        obtain ⟨P', h5, h6⟩ := i1 _ _ h3
        obtain ⟨Ps', h7, h8⟩ := i2 _ _ h4
        exact ⟨_, .cons h5 h7, .cons h6 h8⟩
end

/-! ### Cyclically -/

theorem cyclesPrompt_name {vars : List (Str × Cmd)} {being : List Str} {name : Str} {f : Nat → Str}
    (hp : E.parse name = .ok (.lit name none)) (h : CyclesPrompt E vars being (.inl name) f) :
    f 0 = squashIf E.ignoreWs name := by
  cases h with
  | text h1 h2 h3 =>
    rw [hp] at h2
    cases h2
    cases h3
    rfl

theorem cyclesAssigned_plainly {vars : List (Str × Cmd)} {being : List Str} {l toks : List Cmd} {new : List (Str × Cmd)}
    (hl : ∀ c ∈ l, c.Plainly) : CyclesAssigned E vars being l toks new ↔ toks = l ∧ new = [] := by
  induction l generalizing toks with
  | nil =>
    constructor
    · intro h; cases h; exact ⟨rfl, rfl⟩
    · rintro ⟨rfl, rfl⟩; exact .nil
  | cons c l ih =>
    have hc := hl c (List.mem_cons_self ..)
    have ih := fun toks => ih (toks := toks) fun d hd => hl d (List.mem_cons_of_mem _ hd)
    constructor
    · intro h
      cases h with
      | tok _ h => obtain ⟨rfl, rfl⟩ := (ih _).1 h; exact ⟨rfl, rfl⟩
      | _ => exact absurd rfl (hc _ _ _ _)
    · rintro ⟨rfl, rfl⟩
      exact .tok hc ((ih _).2 ⟨rfl, rfl⟩)

mutual
theorem cycles_noVariables [Inhabited W] {vars : List (Str × Cmd)} {being : List Str} {c : Cmd} {f : Nat → Str} (V : List (Str × Cmd))
    (B : List Str) : Cycles E vars being c f → NoVariables E c → Cycles E V B c f
  | .lit h, _ => .lit h
  | .seq (new := new) h1 h2 h3, h => by
      have i3 := fun V => cyclesAll_noVariables V B h3
      cases h with
      | seq h =>
        obtain ⟨rfl, rfl⟩ := (cyclesAssigned_plainly fun c hc => (h c hc).notAssign).1 h2
        exact .seq h1 ((cyclesAssigned_plainly fun c hc => (h c hc).notAssign).2 ⟨rfl, rfl⟩) (i3 _ h)
  | .variant f h1 h2 h3 h4 h5, h => by
      have i5 := fun p hp => cycles_noVariables V B (h5 p hp)
      cases h with
      | variant h => exact .variant f h1 h2 h3 h4 fun p hp => i5 p hp (h p hp)
  | .variantWild h1 h2 h3 h4 h5, h => by
      have i2 := cyclesPrompt_noVariables V B h2
      have i5 := cycles_noVariables V B h5
      cases h with
      | variant h =>
        have h := h _ (List.mem_cons_self ..)
        cases h with
        | wild h6 h7 =>
          have h8 := cyclesPrompt_name h6 h2
          refine .variantWild h1 (i2 fun c hc => ?_) h3 h4 (i5 (.mkVariant fun c hc => ?_))
          · rw [h6] at hc; cases hc; exact .lit
          · obtain ⟨x, hx, hc⟩ := h4.find c hc
            obtain ⟨i, hi, rfl⟩ := iterateWeighted_content hx
            obtain ⟨w', hw⟩ := h3 default
            rw [h8] at hw
            exact h7 _ ⟨_, _, hw⟩ i hi c hc
  | .wild f h1 h2 h3 h4 h4' h5, h => by
      have i2 := cyclesPrompt_noVariables V B h2
      have i5 := fun V x hx => cyclesPrompt_noVariables V B (h5 x hx)
      cases h with
      | wild h6 h7 =>
        have h8 := cyclesPrompt_name h6 h2
        refine .wild f h1 (i2 fun c hc => ?_) h3 h4 h4' fun x hx => i5 _ x hx fun c hc => ?_
        · rw [h6] at hc; cases hc; exact .lit
        · obtain ⟨i, hi, rfl⟩ := iterateWeighted_content hx
          obtain ⟨w', hw⟩ := h3 default
          rw [h8] at hw
          exact h7 _ ⟨_, _, hw⟩ i hi c hc
  | .wildMissing h1 h2 h3, h => by
      have i2 := cyclesPrompt_noVariables V B h2
      cases h with
      | wild h6 h7 =>
        refine .wildMissing h1 (i2 fun c hc => ?_) h3
        rw [h6] at hc; cases hc; exact .lit
  | .access _ _ _, h => nomatch h
theorem cyclesAll_noVariables [Inhabited W] {vars : List (Str × Cmd)} {being : List Str} {cs : List Cmd} {fs : List (Nat → Str)}
    (V : List (Str × Cmd)) (B : List Str) : CyclesAll E vars being cs fs → (∀ c ∈ cs, NoVariables E c) → CyclesAll E V B cs fs
  | .nil, _ => .nil
  | .cons h1 h3, h => .cons (cycles_noVariables V B h1 (h _ (List.mem_cons_self ..)))
      (cyclesAll_noVariables V B h3 fun c hc => h c (List.mem_cons_of_mem _ hc))
theorem cyclesPrompt_noVariables [Inhabited W] {vars : List (Str × Cmd)} {being : List Str} {p : Prompt} {f : Nat → Str}
    (V : List (Str × Cmd)) (B : List Str) : CyclesPrompt E vars being p f →
      (p.elim (fun s => ∀ c, E.parse s = .ok c → NoVariables E c) (NoVariables E)) → CyclesPrompt E V B p f
  | .text h1 h2 h3, h => .text h1 h2 (cycles_noVariables V B h3 (h _ h2))
  | .cmd h1 h2, h => .cmd h1 (cycles_noVariables V B h2 h)
end

theorem bindsLate_cycles {vars : List (Str × Cmd)} {being : List Str} {cs toks toks' : List Cmd} {new new' : List (Str × Cmd)}
    (h : BindsLate vars cs toks new) (h' : CyclesAssigned E vars being cs toks' new') : toks' = toks ∧ new' = new := by
  induction h generalizing toks' new' with
  | nil => cases h'; exact ⟨rfl, rfl⟩
  | part h _ ih =>
    cases h' with
    | tok _ h' => obtain ⟨rfl, rfl⟩ := ih h'; exact ⟨rfl, rfl⟩
    | _ => exact absurd rfl (h _ _ _ _)
  | keep h _ ih =>
    cases h' with
    | tok h1 => exact absurd rfl (h1 _ _ _ _)
    | keep h1 h' => obtain ⟨rfl, rfl⟩ := ih h'; rw [h] at h1; cases h1; exact ⟨rfl, rfl⟩
    | plain h1 => simp [h] at h1
    | literal h1 => simp [h] at h1
    | immediate h1 => simp [h] at h1
  | set h _ ih =>
    cases h' with
    | tok h1 => exact absurd rfl (h1 _ _ _ _)
    | keep h1 h' => simp [h1] at h
    | plain _ h' => obtain ⟨rfl, rfl⟩ := ih h'; exact ⟨rfl, rfl⟩
  | text h _ ih =>
    cases h' with
    | tok h1 => exact absurd rfl (h1 _ _ _ _)
    | keep h1 h' => simp [h1] at h
    | literal _ h' => obtain ⟨rfl, rfl⟩ := ih h'; exact ⟨rfl, rfl⟩
    | immediate _ h1 => exact absurd rfl (h1 _ _)

theorem variantSelections_map {opts opts' : List (Cmd × Rat)} {lo hi : Int} (g : Cmd → Cmd)
    (hm : opts'.map (·.1) = (opts.map (·.1)).map g) (hn : ((opts.map (·.1)).map g).Nodup) :
    variantSelections opts' lo hi = (variantSelections opts lo hi).map (List.map g) := by
  have hl : opts'.length = opts.length := by simpa using congrArg List.length hm
  unfold variantSelections
  rw [hl, hm, List.map_flatMap]
  congr 1
  funext k
  exact selections_map_on g k _ fun x hx y hy e => List.inj_on_of_nodup_map hn hx hy e

theorem mem_variantSelections {opts : List (Cmd × Rat)} {lo hi : Int} {sel : List Cmd} (h : sel ∈ variantSelections opts lo hi)
    {c : Cmd} (hc : c ∈ sel) : c ∈ opts.map (·.1) := by
  simp only [variantSelections, List.mem_flatMap, mem_selections] at h
  obtain ⟨k, -, -, -, h⟩ := h
  exact h c hc

mutual
theorem cycles_inlined [Inhabited W] {vars : List (Str × Cmd)} {being : List Str} {c c' : Cmd} {f : Nat → Str}
    (V : List (Str × Cmd)) (B : List Str) : Inlined E vars c c' → Cycles E vars being c f → Cycles E V B c' f
  | .same h, h' => cycles_noVariables V B h' h
  | .access h1 h2, h => by
      have ih := fun being f (h : Cycles E vars being _ f) => cycles_inlined V B h2 h
      cases h with
      | access h3 h4 h5 =>
        cases h1.unique h3
        exact ih _ _ h5
  | .seq hb hr, h => by
      have ih := fun V being fs h => cyclesAll_inlined (being := being) (fs := fs) V B hr h
      cases h with
      | seq h1 h2 h3 =>
        obtain ⟨rfl, rfl⟩ := bindsLate_cycles hb h2
        exact .seq h1 ((cyclesAssigned_plainly fun c hc => (inlinedAll_noVariables hr c hc).notAssign).2 ⟨rfl, rfl⟩)
          (ih _ _ _ h3)
  | .variant (opts := opts) (opts' := opts') (lo := lo) (hi := hi) (sep := sep) hr hn hn' hs, h => by
      have ih := fun being => cyclesOptions_inlined (being := being) V B hr
      cases h with
      | variant f h1 h2 h3 h3' h4 =>
        obtain ⟨f', g, h5, h6, h7⟩ := values_replaced (ih _) hn hn' h4
        have h8 := variantSelections_map (lo := lo) (hi := hi) g h6 (h6 ▸ hn')
        have h9 : (roundRobin (variantSelections opts lo hi).length fun i j =>
            joined sep (((variantSelections opts lo hi).getD i []).map fun c => f c j)) =
            (roundRobin (variantSelections opts' lo hi).length fun i j =>
              joined sep (((variantSelections opts' lo hi).getD i []).map fun c => f' c j)) := by
          funext k
          unfold roundRobin
          rw [h8, List.length_map]
          beta_reduce
          have hlt : k % (variantSelections opts lo hi).length < (variantSelections opts lo hi).length :=
            Nat.mod_lt _ (List.length_pos_iff.2 h3)
          rw [List.getD_eq_getElem?_getD, List.getD_eq_getElem?_getD, List.getElem?_map, List.getElem?_eq_getElem hlt, Option.map_some,
            Option.getD_some, Option.getD_some, List.map_map]
          congr 1
          refine List.map_congr_left fun c hc => ?_
          rw [Function.comp, h7 c (mem_variantSelections (List.getElem_mem hlt) hc)]
        rw [h9]
        refine .variant f' h1 hs ?_ ?_ h5
        · rw [h8]
          simpa using h3
        · rintro rfl
          cases hr
          exact h3' rfl
      | variantWild => exact absurd ⟨_, _, _, _, rfl⟩ (inlined_singleWild hr hs)
  | .wrap _ _ _ _, h => nomatch h
theorem cyclesAll_inlined [Inhabited W] {vars : List (Str × Cmd)} {being : List Str} {cs cs' : List Cmd} {fs : List (Nat → Str)}
    (V : List (Str × Cmd)) (B : List Str) : InlinedAll E vars cs cs' → CyclesAll E vars being cs fs →
      CyclesAll E V B cs' fs
  | .nil, h => by cases h; exact .nil
  | .cons h1 h2, h => by
      have i1 := fun being f h => cycles_inlined (being := being) (f := f) V B h1 h
      have i2 := fun being fs h => cyclesAll_inlined (being := being) (fs := fs) V B h2 h
      cases h with
      | cons h3 h5 => exact .cons (i1 _ _ h3) (i2 _ _ h5)
theorem cyclesOptions_inlined [Inhabited W] {vars : List (Str × Cmd)} {being : List Str} {opts opts' : List (Cmd × Rat)}
    (V : List (Str × Cmd)) (B : List Str) : InlinedOptions E vars opts opts' →
      List.Forall₂ (fun p p' => ∀ f, Cycles E vars being p.1 f → Cycles E V B p'.1 f) opts opts'
  | .nil => .nil
  | .cons h1 h2 => .cons (fun _ h => cycles_inlined V B h1 h) (cyclesOptions_inlined V B h2)
end

end Verif
