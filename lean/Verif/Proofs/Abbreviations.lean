import Verif.Spec.Abbreviations
import Verif.Proofs.LawGroups
/-!
# Proofs about variables as abbreviations
-/

namespace Verif
open Spec
variable {W : Type} {E : Env W}

/-! ### Without variables -/

theorem Spec.NoVariables.notAssign {c : Cmd} (h : NoVariables E c) : c.Plainly := by
  cases h <;> simp [Cmd.Plainly]

theorem Spec.ParsesAll.find {vs : List Str} {cs : List Cmd} (h : ParsesAll E vs cs) : ∀ c ∈ cs, ∃ v ∈ vs, E.parse v = .ok c := by
  induction h with
  | nil => simp
  | cons h1 _ ih =>
    intro c hc
    rcases List.mem_cons.1 hc with rfl | hc
    · exact ⟨_, List.mem_cons_self .., h1⟩
    · obtain ⟨v, h2, h3⟩ := ih c hc
      exact ⟨v, List.mem_cons_of_mem _ h2, h3⟩

theorem iterateWeighted_content {items : List Item} {x : Str} (h : x ∈ iterateWeighted items) : ∃ i ∈ items, i.content = x := by
  unfold iterateWeighted at h
  obtain ⟨i, hi, h⟩ := List.mem_flatMap.1 h
  exact ⟨i, hi, (List.eq_of_mem_replicate h).symm⟩

theorem Spec.NoVariables.mkVariant {cs : List Cmd} {lo hi : Int} {sep : Str} {m : Option Method} (h : ∀ c ∈ cs, NoVariables E c) :
    NoVariables E (Cmd.mkVariant (cs.map fun c => (c, 1)) lo hi sep m) := by
  unfold Cmd.mkVariant
  refine .variant fun p hp => ?_
  obtain ⟨c, hc, rfl⟩ := List.mem_map.1 hp
  exact h c hc

theorem listsPrompt_name {vars : List (Str × Cmd)} {being : List Str} {name : Str} {outs : List Str}
    (hp : E.parse name = .ok (.lit name none)) (h : ListsPrompt E vars being (.inl name) outs) :
    outs = [] ∨ outs = [squashIf E.ignoreWs name] := by
  cases h with
  | none => exact .inl rfl
  | text h1 h2 h3 =>
    rw [hp] at h2
    cases h2
    cases h3
    exact .inr rfl

mutual
theorem lists_noVariables [Inhabited W] {vars : List (Str × Cmd)} {being : List Str} {c : Cmd} {outs : List Str} (V : List (Str × Cmd))
    (B : List Str) : Lists E vars being c outs → NoVariables E c → Lists E V B c outs
  | .lit h, _ => .lit h
  | .seq (toks' := toks') (new := new) h1 h2 h3, h => by
      have i3 := fun V => listsTokens_noVariables V B h3
      cases h with
      | seq h =>
        obtain ⟨rfl, rfl⟩ := (listsAssigned_plainly fun c hc => (h c hc).notAssign).1 h2
        exact .seq h1 ((listsAssigned_plainly fun c hc => (h c hc).notAssign).2 ⟨rfl, rfl⟩) (i3 _ h)
  | .empty h1, _ => .empty h1
  | .variant f h1 h2 h3 h4, h => by
      have i4 := fun p hp => lists_noVariables V B (h4 p hp)
      cases h with
      | variant h => exact .variant f h1 h2 h3 fun p hp => i4 p hp (h p hp)
  | .variantWild h1 h2 h3 h4 h5, h => by
      have i2 := listsPrompt_noVariables V B h2
      have i5 := lists_noVariables V B h5
      cases h with
      | variant h =>
        have h := h _ (List.mem_cons_self ..)
        cases h with
        | wild h6 h7 =>
          rcases listsPrompt_name h6 h2 with h8 | h8
          · cases h8
          · cases h8
            refine .variantWild h1 (i2 fun c hc => ?_) h3 h4 (i5 (.mkVariant fun c hc => ?_))
            · rw [h6] at hc; cases hc; exact .lit
            · obtain ⟨x, hx, hc⟩ := h4.find c hc
              obtain ⟨i, hi, rfl⟩ := iterateWeighted_content hx
              obtain ⟨w', hw⟩ := h3 default
              exact h7 _ ⟨_, _, hw⟩ i hi c hc
  | .wild f h1 h2 h3 h4 h5, h => by
      have i2 := listsPrompt_noVariables V B h2
      have i5 := fun V x hx => listsPrompt_noVariables V B (h5 x hx)
      cases h with
      | wild h6 h7 =>
        rcases listsPrompt_name h6 h2 with h8 | h8
        · cases h8
        · cases h8
          refine .wild f h1 (i2 fun c hc => ?_) h3 h4 fun x hx => i5 _ x hx fun c hc => ?_
          · rw [h6] at hc; cases hc; exact .lit
          · obtain ⟨i, hi, rfl⟩ := iterateWeighted_content hx
            obtain ⟨w', hw⟩ := h3 default
            exact h7 _ ⟨_, _, hw⟩ i hi c hc
  | .access _ _ _, h => nomatch h
  | .wrap h1 h2 h3, h => by
      have i2 := listsPrompt_noVariables V B h2
      have i3 := listsPrompt_noVariables V B h3
      cases h with
      | wrap h4 h5 => exact .wrap h1 (i2 h4) (i3 h5)
theorem listsTokens_noVariables [Inhabited W] {vars : List (Str × Cmd)} {being : List Str} {cs : List Cmd} {outss : List (List Str)}
    (V : List (Str × Cmd)) (B : List Str) : ListsTokens E vars being cs outss → (∀ c ∈ cs, NoVariables E c) →
      ListsTokens E V B cs outss
  | .nil, _ => .nil
  | .cons h1 h2 h3, h => .cons (lists_noVariables V B h1 (h _ (List.mem_cons_self ..))) h2
      (listsTokens_noVariables V B h3 fun c hc => h c (List.mem_cons_of_mem _ hc))
theorem listsPrompt_noVariables [Inhabited W] {vars : List (Str × Cmd)} {being : List Str} {p : Prompt} {outs : List Str}
    (V : List (Str × Cmd)) (B : List Str) : ListsPrompt E vars being p outs →
      (p.elim (fun s => ∀ c, E.parse s = .ok c → NoVariables E c) (NoVariables E)) → ListsPrompt E V B p outs
  | .none, _ => .none
  | .text h1 h2 h3, h => .text h1 h2 (lists_noVariables V B h3 (h _ h2))
  | .empty h1, _ => .empty h1
  | .cmd h1 h2, h => .cmd h1 (lists_noVariables V B h2 h)
end

/-! ### What variables stand for -/

theorem Spec.Resolves.unique {u : Option Cmd} {vars : List (Str × Cmd)} {name : Str} {d : Option Cmd} {c c' : Cmd}
    (h : Resolves u vars name d c) (h' : Resolves u vars name d c') : c = c' := by
  cases h <;> cases h' <;> simp_all

theorem Spec.BindsLate.parts {vars : List (Str × Cmd)} {cs toks : List Cmd} {new : List (Str × Cmd)} (h : BindsLate vars cs toks new) :
    ∀ c ∈ toks, c.Plainly := by
  induction h with
  | nil => simp
  | part h _ ih =>
    intro c hc
    rcases List.mem_cons.1 hc with rfl | hc
    · exact h
    · exact ih c hc
  | keep _ _ ih => exact ih
  | set _ _ ih => exact ih
  | text _ _ ih => exact ih

theorem bindsLate_lists {vars : List (Str × Cmd)} {being : List Str} {cs toks toks' : List Cmd} {new new' : List (Str × Cmd)}
    (h : BindsLate vars cs toks new) (h' : ListsAssigned E vars being cs toks' new') : toks' = toks ∧ new' = new := by
  induction h generalizing toks' new' with
  | nil => cases h'; exact ⟨rfl, rfl⟩
  | part h _ ih =>
    cases h' with
    | tok _ h' => obtain ⟨rfl, rfl⟩ := ih h'; exact ⟨rfl, rfl⟩
    | _ => exact absurd rfl (h _ _ _ _)
  | keep h _ ih =>
    cases h' with
    | tok h1 => exact absurd rfl (h1 _ _ _ _)
    | keep h1 h' => obtain ⟨rfl, rfl⟩ := ih h'; rw [h] at h1; cases h1; exact ⟨rfl, rfl⟩
    | plain h1 => simp [h] at h1
    | literal h1 => simp [h] at h1
    | immediate h1 => simp [h] at h1
  | set h _ ih =>
    cases h' with
    | tok h1 => exact absurd rfl (h1 _ _ _ _)
    | keep h1 h' => simp [h1] at h
    | plain _ h' => obtain ⟨rfl, rfl⟩ := ih h'; exact ⟨rfl, rfl⟩
  | text h _ ih =>
    cases h' with
    | tok h1 => exact absurd rfl (h1 _ _ _ _)
    | keep h1 h' => simp [h1] at h
    | literal _ h' => obtain ⟨rfl, rfl⟩ := ih h'; exact ⟨rfl, rfl⟩
    | immediate _ h1 => exact absurd rfl (h1 _ _)

mutual
theorem inlined_noVariables {vars : List (Str × Cmd)} {c c' : Cmd} : Inlined E vars c c' → NoVariables E c'
  | .same h => h
  | .access _ h => inlined_noVariables h
  | .seq _ h => .seq (inlinedAll_noVariables h)
  | .variant h _ _ _ => .variant (inlinedOptions_noVariables h)
  | .wrap h1 h2 _ _ => .wrap (inlined_noVariables h1) (inlined_noVariables h2)
theorem inlinedAll_noVariables {vars : List (Str × Cmd)} {cs cs' : List Cmd} : InlinedAll E vars cs cs' →
    ∀ c ∈ cs', NoVariables E c
  | .nil => by simp
  | .cons h1 h2 => List.forall_mem_cons.2 ⟨inlined_noVariables h1, inlinedAll_noVariables h2⟩
theorem inlinedOptions_noVariables {vars : List (Str × Cmd)} {cs cs' : List (Cmd × Rat)} : InlinedOptions E vars cs cs' →
    ∀ p ∈ cs', NoVariables E p.1
  | .nil => by simp
  | .cons h1 h2 => List.forall_mem_cons.2 ⟨inlined_noVariables h1, inlinedOptions_noVariables h2⟩
end

theorem inlined_method {vars : List (Str × Cmd)} {c c' : Cmd} (h : Inlined E vars c c') (hm : c'.method = none) : c.method = none := by
  cases h <;> first | exact hm | rfl

theorem inlinedOptions_weights {vars : List (Str × Cmd)} {cs cs' : List (Cmd × Rat)} (h : InlinedOptions E vars cs cs') :
    cs'.map (·.2) = cs.map (·.2) := by
  induction cs generalizing cs' with
  | nil => cases h; rfl
  | cons p cs ih => cases h with | cons _ h => simp [ih h]

theorem inlinedOptions_length {vars : List (Str × Cmd)} {cs cs' : List (Cmd × Rat)} (h : InlinedOptions E vars cs cs') :
    cs'.length = cs.length := by simpa using congrArg List.length (inlinedOptions_weights h)

/-- Different options that are replaced by different options: the values go with them. -/
theorem values_replaced {β : Type} {P P' : Cmd → β → Prop} {opts opts' : List (Cmd × Rat)}
    (h : List.Forall₂ (fun p p' => ∀ b, P p.1 b → P' p'.1 b) opts opts') (hn : (opts.map (·.1)).Nodup)
    (hn' : (opts'.map (·.1)).Nodup) {f : Cmd → β} (hf : ∀ p ∈ opts, P p.1 (f p.1)) :
    ∃ (f' : Cmd → β) (g : Cmd → Cmd), (∀ p ∈ opts', P' p.1 (f' p.1)) ∧ opts'.map (·.1) = (opts.map (·.1)).map g ∧
      ∀ c ∈ opts.map (·.1), f' (g c) = f c := by
  induction h with
  | nil => exact ⟨f, id, by simp, by simp, by simp⟩
  | @cons p p' cs cs' hc _ ih =>
    obtain ⟨c, x⟩ := p
    obtain ⟨c', x'⟩ := p'
    simp only [List.map_cons, List.nodup_cons] at hn hn'
    obtain ⟨f', g, h1, h2, h3⟩ := ih hn.2 hn'.2 fun p hp => hf p (List.mem_cons_of_mem _ hp)
    have h4 := hc _ (hf _ (List.mem_cons_self ..))
    refine ⟨Function.update f' c' (f c), Function.update g c c', ?_, ?_, ?_⟩
    · intro p hp
      rcases List.mem_cons.1 hp with rfl | hp
      · simpa using h4
      · rw [Function.update_of_ne fun e => hn'.1 (by rw [← e]; exact List.mem_map.2 ⟨p, hp, rfl⟩)]; exact h1 p hp
    · rw [List.map_cons, List.map_cons, List.map_cons, Function.update_self, h2]
      congr 1
      refine List.map_congr_left fun x hx => ?_
      have : x ≠ c := fun e => hn.1 (e ▸ hx)
      rw [Function.update_of_ne this]
    · intro x hx
      rw [List.map_cons] at hx
      rcases List.mem_cons.1 hx with rfl | hx
      · simp
      · rw [Function.update_of_ne (a' := c) fun e => hn.1 (e ▸ hx), Function.update_of_ne (a' := c')]
        · exact h3 x hx
        · intro e
          exact hn'.1 (by rw [h2, ← e]; exact List.mem_map.2 ⟨x, hx, rfl⟩)

/-! ### Combinatorially -/

theorem inlined_singleWild {vars : List (Str × Cmd)} {cs cs' : List (Cmd × Rat)} (h : InlinedOptions E vars cs cs')
    (hs : ¬ SingleWild cs') : ¬ SingleWild cs := by
  rintro ⟨p, m, v, w, rfl⟩
  cases h with
  | cons h1 h2 =>
    cases h2
    cases h1
    exact hs ⟨_, _, _, _, rfl⟩

mutual
theorem lists_inlined [Inhabited W] {vars : List (Str × Cmd)} {being : List Str} {c c' : Cmd} {outs : List Str}
    (V : List (Str × Cmd)) (B : List Str) : Inlined E vars c c' → Lists E vars being c outs → Lists E V B c' outs
  | .same h, h' => lists_noVariables V B h' h
  | .access h1 h2, h => by
      have ih := fun being outs (h : Lists E vars being _ outs) => lists_inlined V B h2 h
      cases h with
      | access h3 h4 h5 =>
        cases h1.unique h3
        exact ih _ _ h5
  | .seq hb hr, h => by
      have ih := fun V being outss h => listsTokens_inlined (being := being) (outss := outss) V B hr h
      cases h with
      | seq h1 h2 h3 =>
        obtain ⟨rfl, rfl⟩ := bindsLate_lists hb h2
        exact .seq h1 ((listsAssigned_plainly fun c hc => (inlinedAll_noVariables hr c hc).notAssign).2 ⟨rfl, rfl⟩)
          (ih _ _ _ h3)
  | .variant (opts := opts) (opts' := opts') hr hn hn' hs, h => by
      have ih := fun being => listsOptions_inlined (being := being) V B hr
      cases h with
      | empty h1 => cases hr; exact .empty h1
      | variant f h1 h2 h3 h4 =>
        obtain ⟨f', g, h5, h6, h7⟩ := values_replaced (ih _) hn hn' h4
        rw [← variantTexts_congr g h6 (h6 ▸ hn') h7]
        refine .variant f' h1 hs ?_ h5
        rintro rfl
        cases hr
        exact h3 rfl
      | variantWild => exact absurd ⟨_, _, _, _, rfl⟩ (inlined_singleWild hr hs)
  | .wrap hw hi ht ht', h => by
      have i1 := fun being outs h => lists_inlined (being := being) (outs := outs) V B hw h
      have i2 := fun being outs h => lists_inlined (being := being) (outs := outs) V B hi h
      cases h with
      | wrap h1 h2 h3 =>
        refine .wrap h1 ?_ ?_
        · cases h2 with
          | empty h => exact .empty (by rw [ht]; exact h)
          | cmd h h' => exact .cmd (by rw [ht]; exact h) (i1 _ _ h')
        · cases h3 with
          | empty h => exact .empty (by rw [ht']; exact h)
          | cmd h h' => exact .cmd (by rw [ht']; exact h) (i2 _ _ h')
theorem listsTokens_inlined [Inhabited W] {vars : List (Str × Cmd)} {being : List Str} {cs cs' : List Cmd} {outss : List (List Str)}
    (V : List (Str × Cmd)) (B : List Str) : InlinedAll E vars cs cs' → ListsTokens E vars being cs outss →
      ListsTokens E V B cs' outss
  | .nil, h => by cases h; exact .nil
  | .cons h1 h2, h => by
      have i1 := fun being outs h => lists_inlined (being := being) (outs := outs) V B h1 h
      have i2 := fun being outss h => listsTokens_inlined (being := being) (outss := outss) V B h2 h
      cases h with
      | cons h3 h4 h5 => exact .cons (i1 _ _ h3) (fun hm => h4 (inlined_method h1 hm)) (i2 _ _ h5)
theorem listsOptions_inlined [Inhabited W] {vars : List (Str × Cmd)} {being : List Str} {opts opts' : List (Cmd × Rat)}
    (V : List (Str × Cmd)) (B : List Str) : InlinedOptions E vars opts opts' →
      List.Forall₂ (fun p p' => ∀ outs, Lists E vars being p.1 outs → Lists E V B p'.1 outs) opts opts'
  | .nil => .nil
  | .cons h1 h2 => .cons (fun _ h => lists_inlined V B h1 h) (listsOptions_inlined V B h2)
end

end Verif
