import Verif.Proofs.Laws
/-! Each way to write a template differently, by itself. -/

namespace Verif
open Spec
variable {W : Type} {E : Env W} {α β : Type}

/-! ### Lists without duplicates -/

theorem filter_eraseDups [BEq α] [LawfulBEq α] (p : α → Bool) (l : List α) :
    l.eraseDups.filter p = (l.filter p).eraseDups := by
  match l with
  | [] => rfl
  | a :: l =>
    rw [List.eraseDups_cons, List.filter_cons, List.filter_cons]
    have ih := filter_eraseDups p (l.filter fun b => !b == a)
    by_cases h : p a = true
    · rw [if_pos h, if_pos h, ih, List.eraseDups_cons, List.filter_filter, List.filter_filter]
      simp only [Bool.and_comm]
    · rw [if_neg h, if_neg h, ih, List.filter_filter]
      congr 1
      refine List.filter_congr fun b _ => ?_
      by_cases e : b = a
      · subst e; simp [h]
      · simp [e]
termination_by l.length
decreasing_by
  have := List.length_filter_le (fun b => !b == a) l
  simp only [List.length_cons]
  omega

theorem eraseDups_inner [BEq α] [LawfulBEq α] (a b c : List α) :
    (a ++ (b.eraseDups ++ c)).eraseDups = (a ++ (b ++ c)).eraseDups := by
  rw [List.eraseDups_append, List.eraseDups_append (as := a)]
  congr 1
  simp only [List.removeAll, List.filter_append, filter_eraseDups]
  generalize List.filter _ b = b, List.filter _ c = c
  rw [List.eraseDups_append, List.eraseDups_append (as := b), eraseDups_of_nodup (eraseDups_nodup b)]
  congr 2
  refine List.filter_congr fun x _ => ?_
  congr 1
  rw [Bool.eq_iff_iff]
  simp

theorem eraseDups_map [BEq α] [LawfulBEq α] [BEq β] [LawfulBEq β] {g : α → β} (hg : Function.Injective g) (l : List α) :
    (l.map g).eraseDups = l.eraseDups.map g := by
  match l with
  | [] => rfl
  | a :: l =>
    rw [List.map_cons, List.eraseDups_cons, List.eraseDups_cons, List.map_cons, List.filter_map]
    congr 1
    rw [← eraseDups_map hg]
    congr 2
    refine List.filter_congr fun b _ => ?_
    simp [hg.eq_iff]
termination_by l.length
decreasing_by
  have := List.length_filter_le (fun b => !b == a) l
  simp only [List.length_cons]
  omega

/-! ### Choices of one -/

theorem chance_choice {vars : List (Str × Cmd)} {being : List Str} {opts : List (Cmd × Rat)} {sep : Str}
    {m : Option Method} {P : Distr Str} (h2 : 2 ≤ opts.length) :
    Chance E vars being (.variant opts 1 1 sep m) P ↔ m ≠ some .cyc ∧ (∀ p ∈ opts, 0 ≤ p.2) ∧ 0 < total opts ∧
      ∃ Ds, ChanceAll E vars being (opts.map (·.1)) Ds ∧ P = variantDist (Ds.zip (opts.map (·.2))) 1 1 sep := by
  constructor
  · intro h
    cases h with
    | cmd hm h =>
      cases h with
      | variant h1 h2 h3 h4 h5 h6 => exact ⟨hm, h3, h4, _, h6, rfl⟩
      | variantSingle _ _ => simp at h2
      | variantWild _ _ _ _ => simp at h2
  · rintro ⟨h1, h3, h4, Ds, h5, rfl⟩
    exact .cmd h1 (.variant h2 (by decide) h3 h4 (fun h => absurd h (by decide)) h5)

theorem mean_choice {l : List (Distr Str × Rat)} (hl : l ≠ []) (sep : Str) (F : Str → Rat) :
    mean (variantDist l 1 1 sep) F = (l.map fun x => x.2 / total l * mean x.1 F).sum := by
  unfold variantDist
  rw [counts_once _ (List.length_pos_iff.2 hl), mean_bind]
  have e : ∀ f : Nat → Rat, mean [(1, 1)] f = f 1 := fun f => by simp [mean]
  rw [e, mean_map]
  show picked 1 _ _ = _
  rw [picked_one]
  rfl

theorem total_zip {Ds : List (Distr Str)} {opts : List (Cmd × Rat)} (h : Ds.length = opts.length) :
    total (Ds.zip (opts.map (·.2))) = total opts := by
  unfold total
  rw [List.map_snd_zip (by simp [h])]

/-! ### Copies -/

theorem copies_keeps : Keeps E Copies where
  truthy := by
    rintro _ _ ⟨h1, -, -, -⟩
    rw [Bool.eq_iff_iff]
    simp [Cmd.truthy, h1]
  method := by rintro _ _ ⟨-, -, -, -⟩; rfl
  stays := by rintro _ _ ⟨-, -, -, -⟩; exact ⟨id, id⟩
  lists := by
    rintro _ _ _ ⟨h1, h2, h3, h4⟩ vars being outs h
    rename_i before c x ws after sep m
    have h5 : 0 < (before ++ after).length := List.length_pos_iff.2 h4
    have h6 : 0 < ws.length := List.length_pos_iff.2 h1
    rw [List.length_append] at h5
    rw [lists_choice (by simp only [List.length_append, List.length_cons]; omega)] at h
    rw [lists_choice (by simp only [List.length_append, List.length_map]; omega), variantTexts_copies h1]
    refine ⟨h.1, fun p hp => ?_, h.2.2⟩
    rcases List.mem_append.1 hp with hp | hp
    · rcases List.mem_append.1 hp with hp | hp
      · exact h.2.1 p (List.mem_append_left _ hp)
      · obtain ⟨w, -, rfl⟩ := List.mem_map.1 hp
        exact h.2.1 (c, x) (List.mem_append_right _ (List.mem_cons_self ..))
    · exact h.2.1 p (List.mem_append_right _ (List.mem_cons_of_mem _ hp))
  chance := by
    rintro _ _ ⟨h1, h2, h3, h4⟩ vars being P h
    rename_i before c x ws after sep m
    have h5 : 0 < (before ++ after).length := List.length_pos_iff.2 h4
    have h6 : 0 < ws.length := List.length_pos_iff.2 h1
    rw [List.length_append] at h5
    rw [chance_choice (by simp only [List.length_append, List.length_cons]; omega)] at h
    obtain ⟨hm, h7, h8, Ds, h10, rfl⟩ := h
    rw [List.map_append, List.map_cons, chanceAll_append] at h10
    obtain ⟨A, B', rfl, h11, h12⟩ := h10
    cases h12 with
    | @cons _ _ _ _ D B h12 h13 =>
      have hws : ChanceAll E vars being ((ws.map fun w => (c, w)).map (·.1)) (ws.map fun _ => D) := by
        clear h1 h2 h3 h6
        induction ws with
        | nil => exact .nil
        | cons w ws ih => exact .cons h12 ih
      have hA : A.length = (before.map (·.2)).length := by simpa using chanceAll_length h11
      refine ⟨_, (chance_choice (by simp only [List.length_append, List.length_map]; omega)).2
        ⟨hm, ?_, ?_, A ++ (ws.map fun _ => D) ++ B, ?_, rfl⟩, ?_⟩
      · intro p hp
        rcases List.mem_append.1 hp with hp | hp
        · rcases List.mem_append.1 hp with hp | hp
          · exact h7 p (List.mem_append_left _ hp)
          · obtain ⟨w, hw, rfl⟩ := List.mem_map.1 hp
            exact h2 w hw
        · exact h7 p (List.mem_append_right _ (List.mem_cons_of_mem _ hp))
      · have : total (before ++ ws.map (fun w => (c, w)) ++ after) = total (before ++ (c, x) :: after) := by
          simp only [total, List.map_append, List.map_map, Function.comp_def, List.map_id', List.sum_append, h3,
            List.map_cons, List.sum_cons]
          ring
        rw [this]; exact h8
      · rw [List.map_append, List.map_append, chanceAll_append]
        exact ⟨_, _, rfl, chanceAll_append.2 ⟨_, _, rfl, h11, hws⟩, h13⟩
      · rw [List.map_append, List.map_cons, List.zip_append hA, List.zip_cons_cons, List.map_append, List.map_append,
          List.zip_append (by simp [hA]), List.zip_append hA]
        have : (ws.map fun _ => D).zip ((ws.map fun w => (c, w)).map (·.2)) = ws.map fun w => (D, w) := by
          clear h1 h2 h3 hws h6
          induction ws with
          | nil => rfl
          | cons w ws ih => simpa using ih
        rw [this]
        exact variantDist_copies h1 h3 sep

/-! ### Choices inside choices -/

/-- The texts of a choice of one, before joining. -/
theorem single_texts {l : List (List Str)} (h : ∀ t ∈ l, ∃ s, t = [s]) (sep : Str) :
    (l.map (joined sep)).map (fun s => [s]) = l := by
  rw [List.map_map]
  conv_rhs => rw [← List.map_id l]
  refine List.map_congr_left fun t ht => ?_
  obtain ⟨s, rfl⟩ := h t ht
  rfl

theorem singles_of {opts : List (Cmd × Rat)} {f : Cmd → List Str} :
    ∀ t ∈ (opts.flatMap fun p => (f p.1).map fun s => [s]).eraseDups, ∃ s, t = [s] := by
  intro t ht
  rw [List.mem_eraseDups, List.mem_flatMap] at ht
  obtain ⟨p, -, ht⟩ := ht
  obtain ⟨s, -, rfl⟩ := List.mem_map.1 ht
  exact ⟨s, rfl⟩

theorem sum_map_mul (l : List α) (x : Rat) (f : α → Rat) : (l.map fun a => x * f a).sum = x * (l.map f).sum := by
  induction l with
  | nil => simp
  | cons a l ih => simp only [List.map_cons, List.sum_cons, ih]; ring

theorem nested_keeps : Keeps E Nested where
  truthy := by
    rintro _ _ (⟨h1, h2, -, -⟩ | h2 | _)
    · rename_i before inner x after sep sep' m m'
      rw [Bool.eq_iff_iff]
      cases inner with
      | nil => simp at h2
      | cons => simp [Cmd.truthy]
    · rename_i opts x sep sep' m
      cases opts with
      | nil => simp at h2
      | cons => rfl
    · rfl
  method := by rintro _ _ (⟨-, -, -, -⟩ | - | _) <;> rfl
  stays := by rintro _ _ (⟨-, -, -, -⟩ | - | _) <;> exact ⟨id, id⟩
  lists := by
    rintro _ _ _ (⟨h1, h2, h3, h4⟩ | h2 | _) vars being outs h
    · rename_i before inner x after sep sep' m m'
      have h5 : 0 < (before ++ after).length := List.length_pos_iff.2 h1
      rw [List.length_append] at h5
      have l1 : 2 ≤ (before ++ (.variant inner 1 1 sep' m', x) :: after).length := by
        simp only [List.length_append, List.length_cons]; omega
      have l2 : 2 ≤ (before ++ inner.map (fun p => (p.1, x * p.2 / total inner)) ++ after).length := by
        simp only [List.length_append, List.length_map]; omega
      rw [lists_choice l1] at h
      obtain ⟨hm, h6, rfl⟩ := h
      have h7 := (lists_choice h2).1 (h6 (.variant inner 1 1 sep' m', x) (List.mem_append_right _ (List.mem_cons_self ..)))
      rw [lists_choice l2]
      refine ⟨hm, fun p hp => ?_, ?_⟩
      · rcases List.mem_append.1 hp with hp | hp
        · rcases List.mem_append.1 hp with hp | hp
          · exact h6 p (List.mem_append_left _ hp)
          · obtain ⟨q, hq, rfl⟩ := List.mem_map.1 hp
            exact h7.2.1 q hq
        · exact h6 p (List.mem_append_right _ (List.mem_cons_of_mem _ hp))
      · rw [variantTexts_one (by rintro e; simp [e] at l1), variantTexts_one (by rintro e; simp [e] at l2)]
        congr 1
        simp only [List.flatMap_append, List.flatMap_cons, List.append_assoc]
        have h8 := h7.2.2
        dsimp only at h8
        rw [h8, variantTexts_one (by rintro rfl; simp at h2), single_texts singles_of, eraseDups_inner, List.flatMap_map]
    · rename_i opts x sep sep' m
      have hne : opts ≠ [] := by rintro rfl; simp at h2
      cases h with
      | variant f h3 h4 h5 h6 =>
        have h7 := h6 _ (List.mem_singleton.2 rfl)
        rw [variantTexts_one (by simp), List.flatMap_cons, List.flatMap_nil, List.append_nil]
        rw [lists_choice h2] at h7
        have e := h7.2.2
        dsimp only at e
        rw [e, variantTexts_one hne, single_texts singles_of, eraseDups_of_nodup (eraseDups_nodup _), lists_choice h2]
        refine ⟨h3, h7.2.1, ?_⟩
        rw [variantTexts_one hne]
        refine List.map_congr_left fun t ht => ?_
        obtain ⟨s, rfl⟩ := singles_of t ht
        rfl
    · cases h with
      | variant f h3 h4 h5 h6 =>
        have h7 := h6 _ (List.mem_singleton.2 rfl)
        rw [variantTexts_one (by simp), List.flatMap_cons, List.flatMap_nil, List.append_nil]
        dsimp only at h7 ⊢
        generalize f _ = os at h7
        cases h7 with
        | lit _ => exact .lit h3
  chance := by
    rintro _ _ (⟨h1, h2, h3, h4⟩ | h2 | _) vars being P h
    · rename_i before inner x after sep sep' m m'
      have h5 : 0 < (before ++ after).length := List.length_pos_iff.2 h1
      rw [List.length_append] at h5
      have l1 : 2 ≤ (before ++ (.variant inner 1 1 sep' m', x) :: after).length := by
        simp only [List.length_append, List.length_cons]; omega
      have l2 : 2 ≤ (before ++ inner.map (fun p => (p.1, x * p.2 / total inner)) ++ after).length := by
        simp only [List.length_append, List.length_map]; omega
      rw [chance_choice l1] at h
      obtain ⟨hm, h7, h8, Ds, h10, rfl⟩ := h
      rw [List.map_append, List.map_cons, chanceAll_append] at h10
      obtain ⟨A, B', rfl, h11, h12⟩ := h10
      cases h12 with
      | @cons _ _ _ _ D B h12 h13 =>
        rw [chance_choice h2] at h12
        obtain ⟨-, -, -, Is, h14, rfl⟩ := h12
        have hA : A.length = before.length := by simpa using chanceAll_length h11
        have hB : B.length = after.length := by simpa using chanceAll_length h13
        have hI : Is.length = inner.length := by simpa using chanceAll_length h14
        have hx : 0 ≤ x := h7 (.variant inner 1 1 sep' m', x) (List.mem_append_right _ (List.mem_cons_self ..))
        have hti : ((inner.map fun p => (p.1, x * p.2 / total inner)).map (·.2)).sum = x := by
          have : ((inner.map fun p => (p.1, x * p.2 / total inner)).map (·.2)) =
              inner.map fun p => x / total inner * p.2 := by
            rw [List.map_map]
            refine List.map_congr_left fun p _ => ?_
            simp only [Function.comp_apply]
            ring
          rw [this, sum_map_mul]
          show x / total inner * total inner = x
          rw [div_mul_cancel₀ _ (ne_of_gt h4)]
        have htot : total (before ++ inner.map (fun p => (p.1, x * p.2 / total inner)) ++ after) =
            total (before ++ (.variant inner 1 1 sep' m', x) :: after) := by
          unfold total
          unfold total at hti
          rw [List.map_append, List.map_append, List.sum_append, List.sum_append, hti, List.map_append, List.map_cons,
            List.sum_append, List.sum_cons]
          ring
        refine ⟨_, (chance_choice l2).2 ⟨hm, ?_, ?_, A ++ Is ++ B, ?_, rfl⟩, fun F => ?_⟩
        · intro p hp
          rcases List.mem_append.1 hp with hp | hp
          · rcases List.mem_append.1 hp with hp | hp
            · exact h7 p (List.mem_append_left _ hp)
            · obtain ⟨q, hq, rfl⟩ := List.mem_map.1 hp
              exact div_nonneg (mul_nonneg hx (h3 q hq)) (le_of_lt h4)
          · exact h7 p (List.mem_append_right _ (List.mem_cons_of_mem _ hp))
        · rw [htot]; exact h8
        · rw [List.map_append, List.map_append, chanceAll_append]
          refine ⟨_, _, rfl, chanceAll_append.2 ⟨_, _, rfl, h11, ?_⟩, h13⟩
          rw [List.map_map]
          exact h14
        · have n1 : (A ++ variantDist (Is.zip (inner.map (·.2))) 1 1 sep' :: B).zip
              ((before ++ (.variant inner 1 1 sep' m', x) :: after).map (·.2)) ≠ [] := by
            intro e
            have := congrArg List.length e
            simp [hA, hB] at this
          have n2 : (A ++ Is ++ B).zip
              ((before ++ inner.map (fun p => (p.1, x * p.2 / total inner)) ++ after).map (·.2)) ≠ [] := by
            intro e
            have := congrArg List.length e
            simp only [List.length_zip, List.length_append, List.length_map, List.length_nil] at this
            omega
          have n3 : Is.zip (inner.map (·.2)) ≠ [] := by
            intro e
            have := congrArg List.length e
            simp only [List.length_zip, List.length_map, List.length_nil] at this
            omega
          rw [mean_choice n1, mean_choice n2, total_zip (by simp [hA, hB]), total_zip (by simp [hA, hB, hI]), htot]
          generalize total (before ++ (.variant inner 1 1 sep' m', x) :: after) = T
          rw [List.map_append (f := fun y : Cmd × Rat => y.2), List.map_append (f := fun y : Cmd × Rat => y.2),
            List.map_append (f := fun y : Cmd × Rat => y.2), List.map_cons (f := fun y : Cmd × Rat => y.2),
            List.zip_append (by simp [hA]), List.zip_append (by simp [hA, hI]), List.zip_append (by simp [hA]),
            List.zip_cons_cons, List.map_append, List.map_append, List.map_append, List.map_cons, List.sum_append,
            List.sum_append, List.sum_append, List.sum_cons, mean_choice n3, total_zip hI]
          have : ((Is.zip ((inner.map fun p => (p.1, x * p.2 / total inner)).map (·.2))).map fun y =>
              y.2 / T * mean y.1 F).sum = x / T * ((Is.zip (inner.map (·.2))).map fun y => y.2 / total inner * mean y.1 F).sum := by
            rw [← sum_map_mul]
            generalize total inner = U
            clear h14 hI hti htot n1 n2 n3 h2 h3 h4 h7 h8 l1 l2
            induction inner generalizing Is with
            | nil => simp
            | cons p inner ih =>
              cases Is with
              | nil => simp
              | cons I Is =>
                simp only [List.map_cons, List.zip_cons_cons, List.sum_cons, ih]
                ring
          rw [this]
          ring
    · rename_i opts x sep sep' m
      cases h with
      | cmd hm h =>
        cases h with
        | variant h1 => simp at h1
        | variantSingle _ h => exact ⟨P, h, .refl _⟩
    · cases h with
      | cmd hm h =>
        cases h with
        | variant h1 => simp at h1
        | variantSingle _ h => exact ⟨P, h, .refl _⟩

end Verif
