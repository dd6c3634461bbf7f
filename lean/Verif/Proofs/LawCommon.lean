import Verif.Proofs.LawGroups
/-! Common beginnings and ends of options. -/

namespace Verif
open Spec
variable {W : Type} {E : Env W}

/-- A text beside something: in front of it or behind it. -/
def beside (front : Bool) (s x : Str) : Str := if front then s ++ x else x ++ s

theorem beside_injective (front : Bool) (s : Str) : Function.Injective (beside front s) := by
  intro x y h
  cases front
  · exact List.append_cancel_right h
  · exact List.append_cancel_left h

/-- The parts of an option with the text beside them. -/
def withText (front : Bool) (s : Str) (toks : List Cmd) : List Cmd :=
  if front then .lit s none :: toks else toks ++ [.lit s none]

theorem withText_texts [Inhabited W] {vars : List (Str × Cmd)} {being : List Str} {front : Bool} {s : Str} {toks : List Cmd}
    {outs : List Str} (hm : ∀ c ∈ toks, c.method = none) (h : Lists E vars being (.seq (withText front s toks) [] none) outs) :
    ∃ os, Lists E vars being (.seq toks [] none) os ∧ os ≠ [] ∧ outs = os.map (beside front s) := by
  rw [lists_seq] at h
  obtain ⟨h1, toks', new, outss, h2, h3, rfl⟩ := h
  have full : ∀ {V ts os}, ts ⊆ toks → ListsTokens E V being ts os → ∀ x ∈ os, x ≠ [] := by
    intro V ts os hs h
    induction ts generalizing os with
    | nil => cases h; simp
    | cons c ts ih =>
      cases h with
      | cons _ h4 h5 =>
        intro x hx
        rcases List.mem_cons.1 hx with rfl | hx
        · exact h4 (hm c (hs (List.mem_cons_self ..)))
        · exact ih (fun c hc => hs (List.mem_cons_of_mem _ hc)) h5 x hx
  have lit : ∀ {V os}, ListsTokens E V being [.lit s none] os → os = [[s]] := by
    intro V os h
    cases h with
    | cons h _ h' => cases h; cases h'; rfl
  cases front with
  | true =>
    obtain ⟨t1, t2, rfl, h4, h5, h6⟩ := listsAssigned_replace (l := []) (mid := [.lit s none]) (mid' := []) (r := toks)
      (by simp [Cmd.Plainly]) (by simp) (by simpa [withText] using h2)
    cases List.eq_nil_of_subset_nil h5
    rw [List.nil_append, listsTokens_append] at h3
    obtain ⟨a, b, rfl, h7, h8⟩ := h3
    cases lit h7
    refine ⟨cat b, lists_seq.2 ⟨h1, _, _, b, by simpa using h4, by simpa using h8, rfl⟩, cat_ne_nil (full h6 h8), ?_⟩
    rw [cat_append, cat_single]
    simp [beside]
  | false =>
    obtain ⟨t1, t2, rfl, h4, h5, h6⟩ := listsAssigned_replace (l := toks) (mid := [.lit s none]) (mid' := []) (r := [])
      (by simp [Cmd.Plainly]) (by simp) (by simpa [withText] using h2)
    cases List.eq_nil_of_subset_nil h6
    rw [List.append_nil, listsTokens_append] at h3
    obtain ⟨a, b, rfl, h7, h8⟩ := h3
    cases lit h8
    refine ⟨cat a, lists_seq.2 ⟨h1, _, _, a, by simpa using h4, h7, rfl⟩, cat_ne_nil (full h5 h7), ?_⟩
    rw [cat_append, cat_single]
    simp only [List.map_cons, List.map_nil, beside, Bool.false_eq_true, if_false]
    generalize cat a = l
    induction l with
    | nil => rfl
    | cons x l ih => rw [List.flatMap_cons, ih]; rfl

theorem withText_chance {vars : List (Str × Cmd)} {being : List Str} {front : Bool} {s : Str} {toks : List Cmd} {P : Distr Str}
    (h : Chance E vars being (.seq (withText front s toks) [] none) P) :
    ∃ Q, Chance E vars being (.seq toks [] none) Q ∧ Alike P (Q.map (beside front s)) := by
  rw [chance_seq] at h
  obtain ⟨h1, toks', N, Ds, h2, h3, rfl⟩ := h
  have lit : ∀ {V Ps}, ChanceAll E V being [.lit s none] Ps → Ps = [.sure s] := by
    intro V os h
    cases h with
    | cons h h' =>
      cases h'
      cases h with
      | cmd _ h => cases h; rfl
  have key : ∃ ts, ChanceAssign E vars being toks ts N ∧ ∀ V Ps, ChanceAll E V being toks' Ps → ∃ Qs, ChanceAll E V being ts Qs ∧
      Alike ((Distr.all Ps).map (joined [])) (((Distr.all Qs).map (joined [])).map (beside front s)) := by
    cases front with
    | true =>
      obtain ⟨t1, t2, rfl, h4, h5, h6⟩ := chanceAssign_replace (l := []) (mid := [.lit s none]) (mid' := []) (r := toks)
        (by simp [Cmd.Plainly]) (by simp) (by simpa [withText] using h2)
      cases List.eq_nil_of_subset_nil h5
      refine ⟨t2, by simpa using h4, fun V Ps h => ?_⟩
      rw [List.nil_append, chanceAll_append] at h
      obtain ⟨a, b, rfl, h7, h8⟩ := h
      cases lit h7
      refine ⟨b, h8, fun F => ?_⟩
      simp only [mean_map, mean_all_append, joined_nil_sep, Distr.all, mean_bind, mean_sure, List.flatten_append, beside, if_true]
      simp
    | false =>
      obtain ⟨t1, t2, rfl, h4, h5, h6⟩ := chanceAssign_replace (l := toks) (mid := [.lit s none]) (mid' := []) (r := [])
        (by simp [Cmd.Plainly]) (by simp) (by simpa [withText] using h2)
      cases List.eq_nil_of_subset_nil h6
      refine ⟨t1, by simpa using h4, fun V Ps h => ?_⟩
      rw [List.append_nil, chanceAll_append] at h
      obtain ⟨a, b, rfl, h7, h8⟩ := h
      cases lit h8
      refine ⟨a, h7, fun F => ?_⟩
      simp only [mean_map, mean_all_append, joined_nil_sep, Distr.all, mean_bind, mean_sure, List.flatten_append, beside,
        Bool.false_eq_true, if_false]
      simp
  obtain ⟨ts, h4, h5⟩ := key
  obtain ⟨Ds', h6⟩ := chances_for h3 h5
  refine ⟨_, chance_seq.2 ⟨h1, ts, N, Ds', h4, fun x hx => (h6 x hx).1, rfl⟩, fun F => ?_⟩
  rw [mean_bind, mean_map, mean_bind]
  refine mean_congr N fun x hx => ?_
  rw [(h6 x hx).2 F, mean_map]

/-- The two sides of the law. -/
def inFront (front : Bool) (s : Str) (c : Cmd) (m : Option Method) : Cmd :=
  .seq (if front then [.lit s none, c] else [c, .lit s none]) [] m

theorem common_lists [Inhabited W] {vars : List (Str × Cmd)} {being : List Str} {front : Bool} {s : Str}
    {opts : List (List Cmd × Rat)} {sep : Str} {m : Option Method} {outs : List Str} (h2 : 2 ≤ opts.length)
    (hm : ∀ p ∈ opts, ∀ c ∈ p.1, c.method = none)
    (h : Lists E vars being (.variant (opts.map fun p => (.seq (withText front s p.1) [] none, p.2)) 1 1 sep m) outs) :
    Lists E vars being (inFront front s (.variant (opts.map fun p => (.seq p.1 [] none, p.2)) 1 1 sep m) m) outs := by
  rw [lists_choice (by simpa using h2)] at h
  obtain ⟨h1, h3, rfl⟩ := h
  have h4 : ∀ p ∈ opts, Lists E vars being (.seq p.1 [] none) (texts E vars being (.seq p.1 [] none)) ∧
      texts E vars being (.seq p.1 [] none) ≠ [] ∧
      texts E vars being (.seq (withText front s p.1) [] none) =
        (texts E vars being (.seq p.1 [] none)).map (beside front s) := by
    intro p hp
    obtain ⟨os, h5, h6, h7⟩ := withText_texts (hm p hp) (h3 _ (List.mem_map.2 ⟨p, hp, rfl⟩))
    rw [texts_eq h5]
    exact ⟨h5, h6, h7⟩
  have hne : opts ≠ [] := by rintro rfl; simp at h2
  have h5 : Lists E vars being (.variant (opts.map fun p => (.seq p.1 [] none, p.2)) 1 1 sep m)
      (variantTexts (opts.map fun p => (.seq p.1 [] none, p.2)) 1 1 sep (texts E vars being)) := by
    rw [lists_choice (by simpa using h2)]
    refine ⟨h1, fun q hq => ?_, rfl⟩
    obtain ⟨p, hp, rfl⟩ := List.mem_map.1 hq
    exact (h4 p hp).1
  have h6 : variantTexts (opts.map fun p => (.seq p.1 [] none, p.2)) 1 1 sep (texts E vars being) ≠ [] := by
    rw [variantTexts_one (by simpa using hne)]
    obtain ⟨p, opts, rfl⟩ := List.exists_cons_of_ne_nil hne
    obtain ⟨a, t, e⟩ := List.exists_cons_of_ne_nil (h4 p (List.mem_cons_self ..)).2.1
    intro h
    rw [List.map_cons, List.flatMap_cons] at h
    dsimp only at h
    rw [e, List.map_cons, List.cons_append, List.eraseDups_cons] at h
    simp at h
  have h7 : variantTexts (opts.map fun p => (.seq (withText front s p.1) [] none, p.2)) 1 1 sep (texts E vars being) =
      (variantTexts (opts.map fun p => (.seq p.1 [] none, p.2)) 1 1 sep (texts E vars being)).map (beside front s) := by
    rw [variantTexts_one (by simpa using hne), variantTexts_one (by simpa using hne), List.flatMap_map, List.flatMap_map]
    have e : (opts.flatMap fun p => (texts E vars being (.seq (withText front s p.1) [] none)).map fun x => [x]) =
        (opts.flatMap fun p => (texts E vars being (.seq p.1 [] none)).map fun x => [x]).map (List.map (beside front s)) := by
      rw [List.map_flatMap]
      refine List.flatMap_congr fun p hp => ?_
      rw [(h4 p hp).2.2, List.map_map, List.map_map]
      rfl
    dsimp only
    rw [e, eraseDups_map (List.map_injective_iff.2 (beside_injective front s)), List.map_map, List.map_map]
    refine List.map_congr_left fun t ht => ?_
    rw [List.mem_eraseDups, List.mem_flatMap] at ht
    obtain ⟨p, -, ht⟩ := ht
    obtain ⟨x, -, rfl⟩ := List.mem_map.1 ht
    rfl
  rw [h7]
  have hl : Lists E vars being (.lit s none) [s] := .lit (.inl rfl)
  unfold inFront
  cases front with
  | true =>
    rw [if_pos rfl, lists_seq]
    refine ⟨h1, _, [], _, (listsAssigned_plainly (by simp [Cmd.Plainly])).2 ⟨rfl, rfl⟩,
      .cons hl (by simp) (.cons h5 (fun _ => h6) .nil), ?_⟩
    rw [cat_cons, cat_single]
    simp [beside]
  | false =>
    rw [if_neg (by decide), lists_seq]
    refine ⟨h1, _, [], _, (listsAssigned_plainly (by simp [Cmd.Plainly])).2 ⟨rfl, rfl⟩,
      .cons h5 (fun _ => h6) (.cons hl (by simp) .nil), ?_⟩
    rw [cat_cons, cat_single]
    simp only [List.map_cons, List.map_nil]
    rw [List.map_eq_flatMap]
    rfl

theorem common_chance {vars : List (Str × Cmd)} {being : List Str} {front : Bool} {s : Str}
    {opts : List (List Cmd × Rat)} {sep : Str} {m : Option Method} {P : Distr Str} (h2 : 2 ≤ opts.length)
    (h : Chance E vars being (.variant (opts.map fun p => (.seq (withText front s p.1) [] none, p.2)) 1 1 sep m) P) :
    ∃ P', Chance E vars being (inFront front s (.variant (opts.map fun p => (.seq p.1 [] none, p.2)) 1 1 sep m) m) P' ∧
      Alike P P' := by
  rw [chance_choice (by simpa using h2)] at h
  obtain ⟨h1, h3, h4, Ds, h5, rfl⟩ := h
  have hne : opts ≠ [] := by rintro rfl; simp at h2
  have h6 : ∃ Qs, ChanceAll E vars being ((opts.map fun p => ((.seq p.1 [] none, p.2) : Cmd × Rat)).map (·.1)) Qs ∧
      List.Forall₂ (fun D Q => Alike D (Q.map (beside front s))) Ds Qs := by
    clear h2 h3 h4 hne
    induction opts generalizing Ds with
    | nil => cases h5; exact ⟨[], .nil, .nil⟩
    | cons p opts ih =>
      cases h5 with
      | cons h5 h6 =>
        obtain ⟨Q, h7, h8⟩ := withText_chance h5
        obtain ⟨Qs, h9, h10⟩ := ih _ h6
        exact ⟨Q :: Qs, .cons h7 h9, .cons h8 h10⟩
  obtain ⟨Qs, h7, h8⟩ := h6
  have hD : Ds.length = opts.length := by simpa using chanceAll_length h5
  have hQ : Qs.length = opts.length := by simpa using chanceAll_length h7
  have ht : total (opts.map fun p => ((.seq p.1 [] none, p.2) : Cmd × Rat)) =
      total (opts.map fun p => ((.seq (withText front s p.1) [] none, p.2) : Cmd × Rat)) := by
    simp [total, Function.comp_def]
  have h9 : Chance E vars being (.variant (opts.map fun p => (.seq p.1 [] none, p.2)) 1 1 sep m)
      (variantDist (Qs.zip ((opts.map fun p => ((.seq p.1 [] none, p.2) : Cmd × Rat)).map (·.2))) 1 1 sep) := by
    rw [chance_choice (by simpa using h2)]
    refine ⟨h1, ?_, by rw [ht]; exact h4, Qs, h7, rfl⟩
    intro q hq
    obtain ⟨p, hp, rfl⟩ := List.mem_map.1 hq
    exact h3 (.seq (withText front s p.1) [] none, p.2) (List.mem_map.2 ⟨p, hp, rfl⟩)
  have n1 : Ds.zip ((opts.map fun p => ((.seq (withText front s p.1) [] none, p.2) : Cmd × Rat)).map (·.2)) ≠ [] := by
    intro e
    have := congrArg List.length e
    simp only [List.length_zip, List.length_map, List.length_nil] at this
    omega
  have n2 : Qs.zip ((opts.map fun p => ((.seq p.1 [] none, p.2) : Cmd × Rat)).map (·.2)) ≠ [] := by
    intro e
    have := congrArg List.length e
    simp only [List.length_zip, List.length_map, List.length_nil] at this
    omega
  have h10 : Alike (variantDist (Ds.zip ((opts.map fun p => ((.seq (withText front s p.1) [] none, p.2) : Cmd × Rat)).map (·.2))) 1 1 sep)
      ((variantDist (Qs.zip ((opts.map fun p => ((.seq p.1 [] none, p.2) : Cmd × Rat)).map (·.2))) 1 1 sep).map (beside front s)) := by
    intro F
    rw [mean_map, mean_choice n1, mean_choice n2, total_zip (by simp [hD]), total_zip (by simp [hQ]), ht]
    simp only [List.map_map, Function.comp_def]
    generalize total _ = T
    generalize opts.map (fun p => p.2) = ws
    clear h5 h7 h9 hD hQ n1 n2
    induction h8 generalizing ws with
    | nil => rfl
    | cons h8 _ ih =>
      cases ws with
      | nil => rfl
      | cons w ws =>
        simp only [List.zip_cons_cons, List.map_cons, List.sum_cons]
        rw [ih ws, h8 F, mean_map]
  generalize variantDist (Qs.zip _) 1 1 sep = D at h9 h10
  have hl : ∀ V, Chance E V being (.lit s none) (.sure s) := fun V => .cmd (by simp [Cmd.method]) .lit
  unfold inFront
  cases front with
  | true =>
    refine ⟨_, chance_seq.2 ⟨h1, _, .sure [], fun _ => [.sure s, D],
      (chanceAssign_plainly (by simp [Cmd.Plainly])).2 ⟨rfl, rfl⟩, ?_, rfl⟩, h10.trans fun F => ?_⟩
    · intro x hx
      cases List.mem_singleton.1 hx
      exact .cons (hl _) (.cons h9 .nil)
    · simp [mean_map, Distr.all, mean_bind, mean_sure, joined_nil_sep, beside]
  | false =>
    refine ⟨_, chance_seq.2 ⟨h1, _, .sure [], fun _ => [D, .sure s],
      (chanceAssign_plainly (by simp [Cmd.Plainly])).2 ⟨rfl, rfl⟩, ?_, rfl⟩, h10.trans fun F => ?_⟩
    · intro x hx
      cases List.mem_singleton.1 hx
      exact .cons h9 (.cons (hl _) .nil)
    · simp [mean_map, Distr.all, mean_bind, mean_sure, joined_nil_sep, beside]

theorem common_keeps : Keeps E Common where
  truthy := by
    rintro _ _ (⟨h, -⟩ | ⟨h, -⟩) <;>
    · rename_i s opts sep m
      cases opts with
      | nil => simp at h
      | cons => rfl
  method := by rintro _ _ (- | -) <;> rfl
  stays := by rintro _ _ (- | -) <;> exact ⟨id, id⟩
  lists := by
    rintro _ _ _ (⟨h1, h2⟩ | ⟨h1, h2⟩) vars being outs h
    · exact common_lists (front := true) h1 h2 h
    · exact common_lists (front := false) h1 h2 h
  chance := by
    rintro _ _ (⟨h1, h2⟩ | ⟨h1, h2⟩) vars being P h
    · exact common_chance (front := true) h1 h
    · exact common_chance (front := false) h1 h

theorem law_keeps : Keeps E Law where
  truthy := by
    rintro _ _ (h | h | h | h)
    · exact (copies_keeps (E := E)).truthy h
    · exact (nested_keeps (E := E)).truthy h
    · exact (grouped_keeps (E := E)).truthy h
    · exact (common_keeps (E := E)).truthy h
  method := by
    rintro _ _ (h | h | h | h)
    · exact (copies_keeps (E := E)).method h
    · exact (nested_keeps (E := E)).method h
    · exact (grouped_keeps (E := E)).method h
    · exact (common_keeps (E := E)).method h
  stays := by
    rintro _ _ (h | h | h | h)
    · exact (copies_keeps (E := E)).stays h
    · exact (nested_keeps (E := E)).stays h
    · exact (grouped_keeps (E := E)).stays h
    · exact (common_keeps (E := E)).stays h
  lists := by
    rintro _ _ _ (h | h | h | h)
    · exact copies_keeps.lists h
    · exact nested_keeps.lists h
    · exact grouped_keeps.lists h
    · exact common_keeps.lists h
  chance := by
    rintro _ _ (h | h | h | h)
    · exact copies_keeps.chance h
    · exact nested_keeps.chance h
    · exact grouped_keeps.chance h
    · exact common_keeps.chance h

end Verif
