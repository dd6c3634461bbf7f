import Verif.Proofs.LawSteps
/-! Parts of sequences, put together in other ways. -/

namespace Verif
open Spec
variable {W : Type} {E : Env W}

/-! ### Sequences -/

/-- The texts of a sequence without separator. -/
def cat (outss : List (List Str)) : List Str := (product outss).map List.flatten

theorem cat_append (a b : List (List Str)) : cat (a ++ b) = (cat a).flatMap fun s => (cat b).map (s ++ ·) := by
  induction a with
  | nil => simp [cat, product]
  | cons x a ih =>
    unfold cat at ih ⊢
    simp only [List.cons_append, product, List.map_flatMap, List.flatMap_assoc, List.map_map, List.flatMap_map] at ih ⊢
    congr 1
    funext y
    have : (fun t => List.flatten (y :: t)) = fun t : List Str => y ++ t.flatten := by funext t; simp
    simp only [Function.comp_def, this]
    have e := congrArg (List.map (y ++ ·)) ih
    simp only [List.map_map, List.map_flatMap, Function.comp_def] at e
    rw [e]
    congr 1
    funext t
    refine List.map_congr_left fun u _ => ?_
    simp

theorem cat_single (l : List Str) : cat [l] = l := by
  unfold cat
  simp only [product, List.map_cons, List.map_nil, List.map_flatMap]
  induction l with
  | nil => rfl
  | cons a l ih => rw [List.flatMap_cons, ih]; simp

theorem cat_cons (l : List Str) (b : List (List Str)) : cat (l :: b) = l.flatMap fun s => (cat b).map (s ++ ·) := by
  have := cat_append [l] b
  rw [cat_single] at this
  exact this

theorem cat_ne_nil {l : List (List Str)} (h : ∀ x ∈ l, x ≠ []) : cat l ≠ [] := by
  induction l with
  | nil => simp [cat, product]
  | cons x l ih =>
    rw [cat_cons]
    obtain ⟨a, x, rfl⟩ := List.exists_cons_of_ne_nil (h x (List.mem_cons_self ..))
    intro e
    have h1 := ih fun y hy => h y (List.mem_cons_of_mem _ hy)
    simp only [List.flatMap_cons, List.append_eq_nil_iff, List.map_eq_nil_iff] at e
    exact h1 e.1

theorem seq_texts (outss : List (List Str)) :
    ((product outss).map fun t => joined [] ([] :: t ++ [[]])) = cat outss := by
  unfold cat
  refine List.map_congr_left fun t _ => ?_
  rw [joined_nil_sep]
  simp

theorem lists_seq {vars : List (Str × Cmd)} {being : List Str} {toks : List Cmd} {m : Option Method} {outs : List Str} :
    Lists E vars being (.seq toks [] m) outs ↔ Finite m ∧ ∃ toks' new outss, ListsAssigned E vars being toks toks' new ∧
      ListsTokens E (new ++ vars) being toks' outss ∧ outs = cat outss := by
  constructor
  · intro h
    cases h with
    | seq h1 h2 h3 => exact ⟨h1, _, _, _, h2, h3, seq_texts _⟩
  · rintro ⟨h1, toks', new, outss, h2, h3, rfl⟩
    rw [← seq_texts]
    exact .seq h1 h2 h3

theorem listsTokens_append {vars : List (Str × Cmd)} {being : List Str} {l r : List Cmd} {outss : List (List Str)} :
    ListsTokens E vars being (l ++ r) outss ↔
      ∃ a b, outss = a ++ b ∧ ListsTokens E vars being l a ∧ ListsTokens E vars being r b := by
  induction l generalizing outss with
  | nil =>
    refine ⟨fun h => ⟨[], outss, rfl, .nil, h⟩, ?_⟩
    rintro ⟨a, b, rfl, h1, h2⟩
    cases h1; exact h2
  | cons c l ih =>
    constructor
    · intro h
      cases h with
      | cons h1 h1' h2 =>
        obtain ⟨a, b, rfl, h3, h4⟩ := ih.1 h2
        exact ⟨_ :: a, b, rfl, .cons h1 h1' h3, h4⟩
    · rintro ⟨a, b, rfl, h1, h2⟩
      cases h1 with
      | cons h1 h1' h3 => exact .cons h1 h1' (ih.2 ⟨_, _, rfl, h3, h2⟩)

/-- The command assigns no variable. -/
def Cmd.Plainly (c : Cmd) : Prop := ∀ n v i o, c ≠ .assign n v i o

theorem listsAssigned_plainly {vars : List (Str × Cmd)} {being : List Str} {l toks : List Cmd} {new : List (Str × Cmd)}
    (hl : ∀ c ∈ l, c.Plainly) : ListsAssigned E vars being l toks new ↔ toks = l ∧ new = [] := by
  induction l generalizing toks with
  | nil =>
    constructor
    · intro h; cases h; exact ⟨rfl, rfl⟩
    · rintro ⟨rfl, rfl⟩; exact .nil
  | cons c l ih =>
    have hc := hl c (List.mem_cons_self ..)
    have ih := fun toks => ih (toks := toks) fun c hc => hl c (List.mem_cons_of_mem _ hc)
    constructor
    · intro h
      cases h with
      | tok _ h => obtain ⟨rfl, rfl⟩ := (ih _).1 h; exact ⟨rfl, rfl⟩
      | keep => exact absurd rfl (hc _ _ _ _)
      | plain => exact absurd rfl (hc _ _ _ _)
      | literal => exact absurd rfl (hc _ _ _ _)
      | immediate => exact absurd rfl (hc _ _ _ _)
    · rintro ⟨rfl, rfl⟩
      exact .tok hc ((ih _).2 ⟨rfl, rfl⟩)

/-- Parts that assign nothing can be replaced without touching the assignments around them. -/
theorem listsAssigned_replace {vars : List (Str × Cmd)} {being : List Str} {l mid mid' r toks : List Cmd}
    {new : List (Str × Cmd)} (hm : ∀ c ∈ mid, c.Plainly) (hm' : ∀ c ∈ mid', c.Plainly)
    (h : ListsAssigned E vars being (l ++ mid ++ r) toks new) :
    ∃ t1 t2, toks = t1 ++ mid ++ t2 ∧ ListsAssigned E vars being (l ++ mid' ++ r) (t1 ++ mid' ++ t2) new ∧
      t1 ⊆ l ∧ t2 ⊆ r := by
  have back : ∀ (mid' : List Cmd), (∀ c ∈ mid', c.Plainly) → ∀ {r toks new}, ListsAssigned E vars being r toks new →
      ListsAssigned E vars being (mid' ++ r) (mid' ++ toks) new := by
    intro mid' hm' r toks new h
    induction mid' with
    | nil => exact h
    | cons c l ih => exact .tok (hm' c (List.mem_cons_self ..)) (ih fun c hc => hm' c (List.mem_cons_of_mem _ hc))
  have sub : ∀ {r toks new}, ListsAssigned E vars being r toks new → toks ⊆ r := by
    intro r
    induction r with
    | nil => intro toks new h; cases h; simp
    | cons c r ih =>
      intro toks new h
      cases h with
      | tok _ h => exact List.cons_subset_cons _ (ih h)
      | keep _ h => exact List.subset_cons_of_subset _ (ih h)
      | plain _ h => exact List.subset_cons_of_subset _ (ih h)
      | literal _ h => exact List.subset_cons_of_subset _ (ih h)
      | immediate _ _ _ h => exact List.subset_cons_of_subset _ (ih h)
  induction l generalizing toks new with
  | nil =>
    rw [List.nil_append] at h ⊢
    have : ∃ t2, toks = mid ++ t2 ∧ ListsAssigned E vars being r t2 new := by
      clear hm' back sub
      induction mid generalizing toks with
      | nil => exact ⟨toks, rfl, h⟩
      | cons c l ih =>
        have hc := hm c (List.mem_cons_self ..)
        cases h with
        | tok _ h =>
          obtain ⟨t2, rfl, h2⟩ := ih (fun c hc => hm c (List.mem_cons_of_mem _ hc)) h
          exact ⟨t2, rfl, h2⟩
        | keep => exact absurd rfl (hc _ _ _ _)
        | plain => exact absurd rfl (hc _ _ _ _)
        | literal => exact absurd rfl (hc _ _ _ _)
        | immediate => exact absurd rfl (hc _ _ _ _)
    obtain ⟨t2, rfl, h2⟩ := this
    exact ⟨[], t2, rfl, back mid' hm' h2, by simp, sub h2⟩
  | cons c l ih =>
    rw [List.cons_append, List.cons_append] at h ⊢
    cases h with
    | tok h1 h =>
      obtain ⟨t1, t2, rfl, h2, h3, h4⟩ := ih h
      exact ⟨c :: t1, t2, rfl, .tok h1 h2, List.cons_subset_cons _ h3, h4⟩
    | keep h1 h =>
      obtain ⟨t1, t2, rfl, h2, h3, h4⟩ := ih h
      exact ⟨t1, t2, rfl, .keep h1 h2, List.subset_cons_of_subset _ h3, h4⟩
    | plain h1 h =>
      obtain ⟨t1, t2, rfl, h2, h3, h4⟩ := ih h
      exact ⟨t1, t2, rfl, .plain h1 h2, List.subset_cons_of_subset _ h3, h4⟩
    | literal h1 h =>
      obtain ⟨t1, t2, rfl, h2, h3, h4⟩ := ih h
      exact ⟨t1, t2, rfl, .literal h1 h2, List.subset_cons_of_subset _ h3, h4⟩
    | immediate h1 h5 h6 h =>
      obtain ⟨t1, t2, rfl, h2, h3, h4⟩ := ih h
      exact ⟨t1, t2, rfl, .immediate h1 h5 h6 h2, List.subset_cons_of_subset _ h3, h4⟩

theorem lists_replace {vars : List (Str × Cmd)} {being : List Str} {l mid mid' r : List Cmd} {m : Option Method}
    {outs : List Str} (hm : ∀ c ∈ mid, c.Plainly) (hm' : ∀ c ∈ mid', c.Plainly)
    (hs : ∀ V outss, ListsTokens E V being mid outss → ∃ outss', ListsTokens E V being mid' outss' ∧ cat outss' = cat outss)
    (h : Lists E vars being (.seq (l ++ mid ++ r) [] m) outs) : Lists E vars being (.seq (l ++ mid' ++ r) [] m) outs := by
  rw [lists_seq] at h ⊢
  obtain ⟨h1, toks, new, outss, h2, h3, rfl⟩ := h
  obtain ⟨t1, t2, rfl, h4, -, -⟩ := listsAssigned_replace hm hm' h2
  rw [List.append_assoc, listsTokens_append] at h3
  obtain ⟨a, b, rfl, h5, h6⟩ := h3
  rw [listsTokens_append] at h6
  obtain ⟨b, c, rfl, h6, h7⟩ := h6
  obtain ⟨b', h8, h9⟩ := hs _ _ h6
  refine ⟨h1, _, _, a ++ (b' ++ c), h4, ?_, ?_⟩
  · rw [List.append_assoc, listsTokens_append]
    exact ⟨_, _, rfl, h5, listsTokens_append.2 ⟨_, _, rfl, h8, h7⟩⟩
  · simp only [cat_append, h9]

/-! ### Chances of sequences -/

theorem mean_all_append {α : Type} (a b : List (Distr α)) (F : List α → Rat) :
    mean (Distr.all (a ++ b)) F = mean (Distr.all a) fun x => mean (Distr.all b) fun y => F (x ++ y) := by
  induction a generalizing F with
  | nil => simp only [List.nil_append, Distr.all, mean_sure]
  | cons d a ih => simp only [List.cons_append, Distr.all, mean_bind, mean_map, ih]

theorem chance_seq {vars : List (Str × Cmd)} {being : List Str} {toks : List Cmd} {m : Option Method} {sep : Str} {P : Distr Str} :
    Chance E vars being (.seq toks sep m) P ↔ m ≠ some .cyc ∧ ∃ toks' N, ∃ Ds : List (Str × Cmd) → List (Distr Str), ChanceAssign E vars being toks toks' N ∧
      (∀ x, x ∈ N → ChanceAll E (x.1 ++ vars) being toks' (Ds x.1)) ∧
      P = N.bind fun new => (Distr.all (Ds new)).map (joined sep) := by
  constructor
  · intro h
    cases h with
    | cmd hm h =>
      cases h with
      | seq h1 h2 => exact ⟨hm, _, _, _, h1, h2, rfl⟩
  · rintro ⟨hm, toks', N, Ds, h1, h2, rfl⟩
    exact .cmd hm (.seq h1 h2)

theorem chanceAssign_plainly {vars : List (Str × Cmd)} {being : List Str} {l toks : List Cmd} {N : Distr (List (Str × Cmd))}
    (hl : ∀ c ∈ l, c.Plainly) : ChanceAssign E vars being l toks N ↔ toks = l ∧ N = .sure [] := by
  induction l generalizing toks with
  | nil =>
    constructor
    · intro h; cases h; exact ⟨rfl, rfl⟩
    · rintro ⟨rfl, rfl⟩; exact .nil
  | cons c l ih =>
    have hc := hl c (List.mem_cons_self ..)
    have ih := fun toks => ih (toks := toks) fun c hc => hl c (List.mem_cons_of_mem _ hc)
    constructor
    · intro h
      cases h with
      | tok _ h => obtain ⟨rfl, rfl⟩ := (ih _).1 h; exact ⟨rfl, rfl⟩
      | keep => exact absurd rfl (hc _ _ _ _)
      | plain => exact absurd rfl (hc _ _ _ _)
      | literal => exact absurd rfl (hc _ _ _ _)
      | immediate => exact absurd rfl (hc _ _ _ _)
    · rintro ⟨rfl, rfl⟩
      exact .tok hc ((ih _).2 ⟨rfl, rfl⟩)

theorem chanceAssign_replace {vars : List (Str × Cmd)} {being : List Str} {l mid mid' r toks : List Cmd}
    {N : Distr (List (Str × Cmd))} (hm : ∀ c ∈ mid, c.Plainly) (hm' : ∀ c ∈ mid', c.Plainly)
    (h : ChanceAssign E vars being (l ++ mid ++ r) toks N) :
    ∃ t1 t2, toks = t1 ++ mid ++ t2 ∧ ChanceAssign E vars being (l ++ mid' ++ r) (t1 ++ mid' ++ t2) N ∧
      t1 ⊆ l ∧ t2 ⊆ r := by
  have back : ∀ (mid' : List Cmd), (∀ c ∈ mid', c.Plainly) → ∀ {r toks N}, ChanceAssign E vars being r toks N →
      ChanceAssign E vars being (mid' ++ r) (mid' ++ toks) N := by
    intro mid' hm' r toks N h
    induction mid' with
    | nil => exact h
    | cons c l ih => exact .tok (hm' c (List.mem_cons_self ..)) (ih fun c hc => hm' c (List.mem_cons_of_mem _ hc))
  have sub : ∀ {r toks N}, ChanceAssign E vars being r toks N → toks ⊆ r := by
    intro r
    induction r with
    | nil => intro toks N h; cases h; simp
    | cons c r ih =>
      intro toks N h
      cases h with
      | tok _ h => exact List.cons_subset_cons _ (ih h)
      | keep _ h => exact List.subset_cons_of_subset _ (ih h)
      | plain _ h => exact List.subset_cons_of_subset _ (ih h)
      | literal _ h => exact List.subset_cons_of_subset _ (ih h)
      | immediate _ _ _ h => exact List.subset_cons_of_subset _ (ih h)
  induction l generalizing toks N with
  | nil =>
    rw [List.nil_append] at h ⊢
    have : ∃ t2, toks = mid ++ t2 ∧ ChanceAssign E vars being r t2 N := by
      clear hm' back sub
      induction mid generalizing toks with
      | nil => exact ⟨toks, rfl, h⟩
      | cons c l ih =>
        have hc := hm c (List.mem_cons_self ..)
        cases h with
        | tok _ h =>
          obtain ⟨t2, rfl, h2⟩ := ih (fun c hc => hm c (List.mem_cons_of_mem _ hc)) h
          exact ⟨t2, rfl, h2⟩
        | keep => exact absurd rfl (hc _ _ _ _)
        | plain => exact absurd rfl (hc _ _ _ _)
        | literal => exact absurd rfl (hc _ _ _ _)
        | immediate => exact absurd rfl (hc _ _ _ _)
    obtain ⟨t2, rfl, h2⟩ := this
    exact ⟨[], t2, rfl, back mid' hm' h2, by simp, sub h2⟩
  | cons c l ih =>
    rw [List.cons_append, List.cons_append] at h ⊢
    cases h with
    | tok h1 h =>
      obtain ⟨t1, t2, rfl, h2, h3, h4⟩ := ih h
      exact ⟨c :: t1, t2, rfl, .tok h1 h2, List.cons_subset_cons _ h3, h4⟩
    | keep h1 h =>
      obtain ⟨t1, t2, rfl, h2, h3, h4⟩ := ih h
      exact ⟨t1, t2, rfl, .keep h1 h2, List.subset_cons_of_subset _ h3, h4⟩
    | plain h1 h =>
      obtain ⟨t1, t2, rfl, h2, h3, h4⟩ := ih h
      exact ⟨t1, t2, rfl, .plain h1 h2, List.subset_cons_of_subset _ h3, h4⟩
    | literal h1 h =>
      obtain ⟨t1, t2, rfl, h2, h3, h4⟩ := ih h
      exact ⟨t1, t2, rfl, .literal h1 h2, List.subset_cons_of_subset _ h3, h4⟩
    | immediate h1 h5 h6 h =>
      obtain ⟨t1, t2, rfl, h2, h3, h4⟩ := ih h
      exact ⟨t1, t2, rfl, .immediate h1 h5 h6 h2, List.subset_cons_of_subset _ h3, h4⟩

/-- For every distribution of the variables there are chances of the parts. -/
theorem chances_for {vars : List (Str × Cmd)} {being : List Str} {toks toks' : List Cmd} {N : Distr (List (Str × Cmd))}
    {Ds : List (Str × Cmd) → List (Distr Str)} {Q : List (Distr Str) → List (Distr Str) → Prop}
    (h : ∀ x, x ∈ N → ChanceAll E (x.1 ++ vars) being toks (Ds x.1))
    (hs : ∀ V Ps, ChanceAll E V being toks Ps → ∃ Ps', ChanceAll E V being toks' Ps' ∧ Q Ps Ps') :
    ∃ Ds' : List (Str × Cmd) → List (Distr Str), ∀ x, x ∈ N →
      ChanceAll E (x.1 ++ vars) being toks' (Ds' x.1) ∧ Q (Ds x.1) (Ds' x.1) := by
  have : ∀ new, ∃ D', ∀ q, (new, q) ∈ N → ChanceAll E (new ++ vars) being toks' D' ∧ Q (Ds new) D' := by
    intro new
    by_cases hN : ∃ q, (new, q) ∈ N
    · obtain ⟨q, hq⟩ := hN
      obtain ⟨D', h6, h7⟩ := hs _ _ (h _ hq)
      exact ⟨D', fun _ _ => ⟨h6, h7⟩⟩
    · exact ⟨[], fun q hq => absurd ⟨q, hq⟩ hN⟩
  choose Ds' hDs using this
  exact ⟨Ds', fun x hx => hDs x.1 x.2 hx⟩

theorem chance_replace {vars : List (Str × Cmd)} {being : List Str} {l mid mid' r : List Cmd} {m : Option Method}
    {P : Distr Str} (hm : ∀ c ∈ mid, c.Plainly) (hm' : ∀ c ∈ mid', c.Plainly)
    (hs : ∀ V Ps, ChanceAll E V being mid Ps → ∃ Ps', ChanceAll E V being mid' Ps' ∧
      Alike ((Distr.all Ps).map List.flatten) ((Distr.all Ps').map List.flatten))
    (h : Chance E vars being (.seq (l ++ mid ++ r) [] m) P) :
    ∃ P', Chance E vars being (.seq (l ++ mid' ++ r) [] m) P' ∧ Alike P P' := by
  rw [chance_seq] at h
  obtain ⟨h1, toks, N, Ds, h2, h3, rfl⟩ := h
  obtain ⟨t1, t2, rfl, h4, -, -⟩ := chanceAssign_replace hm hm' h2
  obtain ⟨Ds', h5⟩ := chances_for (toks' := t1 ++ mid' ++ t2)
    (Q := fun Ps Ps' => Alike ((Distr.all Ps).map (joined [])) ((Distr.all Ps').map (joined []))) h3 (by
      intro V Ps h
      rw [List.append_assoc, chanceAll_append] at h
      obtain ⟨a, b, rfl, h5, h6⟩ := h
      rw [chanceAll_append] at h6
      obtain ⟨b, c, rfl, h6, h7⟩ := h6
      obtain ⟨b', h8, h9⟩ := hs _ _ h6
      refine ⟨a ++ (b' ++ c), ?_, fun F => ?_⟩
      · rw [List.append_assoc, chanceAll_append]
        exact ⟨_, _, rfl, h5, chanceAll_append.2 ⟨_, _, rfl, h8, h7⟩⟩
      · simp only [mean_map, mean_all_append, joined_nil_sep, List.flatten_append]
        congr 1
        funext x
        have e := h9 fun s => mean (Distr.all c) fun z => F (x.flatten ++ (s ++ z.flatten))
        simpa only [mean_map] using e)
  exact ⟨_, chance_seq.2 ⟨h1, _, N, Ds', h4, fun x hx => (h5 x hx).1, rfl⟩, (Alike.refl N).bind fun x hx => (h5 x hx).2⟩

/-! ### Groups -/

theorem grouped_keeps : Keeps E Grouped where
  truthy := by
    rintro _ _ (⟨-, -, h, -⟩ | _ | - | - | ⟨h, -⟩)
    · exact h
    · rfl
    · rw [Bool.eq_iff_iff]; simp [Cmd.truthy]
    · rw [Bool.eq_iff_iff]; simp [Cmd.truthy]
    · rw [Bool.eq_iff_iff]; simp [Cmd.truthy, h]
  method := by
    rintro _ _ (⟨-, -, -, h⟩ | _ | - | - | -)
    · exact h
    · rfl
    · rfl
    · rfl
    · rfl
  stays := by
    rintro _ _ (⟨h1, h2, -, -⟩ | _ | - | - | -)
    · rename_i c m
      refine ⟨id, fun h => ?_⟩
      cases c with
      | assign => exact h1 _ _ _ _ rfl
      | wild => exact h2 _ _ _ rfl
      | _ => exact h
    · exact ⟨id, id⟩
    · exact ⟨id, id⟩
    · exact ⟨id, id⟩
    · exact ⟨id, id⟩
  lists := by
    rintro _ _ _ (⟨h1, -, -, -⟩ | _ | h1 | h1 | ⟨-, h1⟩) vars being outs h
    · rw [lists_seq] at h
      obtain ⟨-, toks, new, outss, h3, h4, rfl⟩ := h
      rw [listsAssigned_plainly (by rintro _ hc; cases List.mem_singleton.1 hc; exact h1)] at h3
      obtain ⟨rfl, rfl⟩ := h3
      cases h4 with
      | cons h5 _ h6 =>
        cases h6
        rw [cat_single]
        exact h5
    · rename_i a b m
      cases h with
      | lit hf =>
        refine lists_seq.2 ⟨hf, _, [], [[a], [b]], (listsAssigned_plainly (by simp [Cmd.Plainly])).2 ⟨rfl, rfl⟩,
          .cons (.lit hf) (by simp) (.cons (.lit hf) (by simp) .nil), ?_⟩
        simp [cat, product]
    · rename_i before a b after m m'
      have h2 := lists_replace (E := E) (vars := vars) (being := being) (outs := outs) (m := m) (l := before)
        (mid := [.lit (a ++ b) m']) (mid' := [.lit a m', .lit b m']) (r := after)
        (by simp [Cmd.Plainly]) (by simp [Cmd.Plainly]) (by
          intro V outss h
          cases h with
          | cons h3 _ h =>
            cases h
            cases h3 with
            | lit hf =>
              exact ⟨[[a], [b]], .cons (.lit hf) (by simp) (.cons (.lit hf) (by simp) .nil), by simp [cat_cons]⟩)
        (by simpa using h)
      simpa using h2
    · rename_i before a b after m m'
      have h2 := lists_replace (E := E) (vars := vars) (being := being) (outs := outs) (m := m) (l := before) (mid := [.lit a m', .lit b m']) (mid' := [.lit (a ++ b) m']) (r := after)
        (by simp [Cmd.Plainly]) (by simp [Cmd.Plainly]) (by
          intro V outss h
          cases h with
          | cons h3 _ h =>
            cases h with
            | cons h4 _ h =>
              cases h
              cases h3 with
              | lit hf =>
                cases h4 with
                | lit _ => exact ⟨[[a ++ b]], .cons (.lit hf) (by simp) .nil, by simp [cat_cons]⟩)
        (by simpa using h)
      simpa using h2
    · rename_i before inner after m
      have h2 := lists_replace (E := E) (vars := vars) (being := being) (outs := outs) (m := m) (l := before) (mid := [.seq inner [] none]) (mid' := inner) (r := after)
        (by simp [Cmd.Plainly]) h1 (by
          intro V outss h
          cases h with
          | cons h3 _ h =>
            cases h
            rw [lists_seq] at h3
            obtain ⟨-, toks, new, outss, h3, h4, rfl⟩ := h3
            rw [listsAssigned_plainly h1] at h3
            obtain ⟨rfl, rfl⟩ := h3
            exact ⟨outss, h4, by rw [cat_single]⟩)
        (by simpa using h)
      exact h2
  chance := by
    rintro _ _ (⟨h1, -, -, -⟩ | _ | h1 | h1 | ⟨-, h1⟩) vars being P h
    · rename_i c m
      rw [chance_seq] at h
      obtain ⟨-, toks, N, Ds, h3, h4, rfl⟩ := h
      rw [chanceAssign_plainly (by rintro _ hc; cases List.mem_singleton.1 hc; exact h1)] at h3
      obtain ⟨rfl, rfl⟩ := h3
      have h5 := h4 ([], 1) (List.mem_singleton.2 rfl)
      generalize he : Ds ([], (1 : Rat)).1 = D at h5
      cases h5 with
      | cons h5 h6 =>
        cases h6
        refine ⟨_, h5, fun F => ?_⟩
        simp only at he
        rw [mean_bind, mean_sure, he]
        simp only [mean_map, Distr.all, mean_bind, mean_sure]
        rfl
    · rename_i a b m
      cases h with
      | cmd hm h =>
        cases h with
        | lit =>
          have hl : ∀ V (t : Str), Chance E V being (.lit t m) (.sure t) := fun V t => .cmd hm .lit
          refine ⟨_, chance_seq.2 ⟨hm, _, .sure [], fun _ => [.sure a, .sure b],
            (chanceAssign_plainly (by simp [Cmd.Plainly])).2 ⟨rfl, rfl⟩, ?_, rfl⟩, fun F => ?_⟩
          · intro x hx
            cases List.mem_singleton.1 hx
            exact .cons (hl _ _) (.cons (hl _ _) .nil)
          · simp [mean_map, Distr.all, mean_bind, mean_sure, joined_nil_sep]
    · rename_i before a b after m m'
      have h2 := chance_replace (E := E) (vars := vars) (being := being) (P := P) (m := m) (l := before)
        (mid := [.lit (a ++ b) m']) (mid' := [.lit a m', .lit b m']) (r := after)
        (by simp [Cmd.Plainly]) (by simp [Cmd.Plainly]) (by
          intro V Ps h
          cases h with
          | cons h3 h =>
            cases h
            cases h3 with
            | cmd _ h3 =>
              cases h3
              refine ⟨[.sure a, .sure b], .cons (.cmd h1 .lit) (.cons (.cmd h1 .lit) .nil), fun F => ?_⟩
              simp [mean_map, Distr.all, mean_bind, mean_sure])
        (by simpa using h)
      simpa using h2
    · rename_i before a b after m m'
      have h2 := chance_replace (E := E) (vars := vars) (being := being) (P := P) (m := m) (l := before) (mid := [.lit a m', .lit b m']) (mid' := [.lit (a ++ b) m']) (r := after)
        (by simp [Cmd.Plainly]) (by simp [Cmd.Plainly]) (by
          intro V Ps h
          cases h with
          | cons h3 h =>
            cases h with
            | cons h4 h =>
              cases h
              cases h3 with
              | cmd _ h3 =>
                cases h4 with
                | cmd _ h4 =>
                  cases h3
                  cases h4
                  refine ⟨[.sure (a ++ b)], .cons (.cmd h1 .lit) .nil, fun F => ?_⟩
                  simp [mean_map, Distr.all, mean_bind, mean_sure])
        (by simpa using h)
      simpa using h2
    · rename_i before inner after m
      have h2 := chance_replace (E := E) (vars := vars) (being := being) (P := P) (m := m) (l := before) (mid := [.seq inner [] none]) (mid' := inner) (r := after)
        (by simp [Cmd.Plainly]) h1 (by
          intro V Ps h
          cases h with
          | cons h3 h =>
            cases h
            rw [chance_seq] at h3
            obtain ⟨-, toks, N, Ds, h3, h4, rfl⟩ := h3
            rw [chanceAssign_plainly h1] at h3
            obtain ⟨rfl, rfl⟩ := h3
            have h5 := h4 ([], 1) (List.mem_singleton.2 rfl)
            refine ⟨_, h5, fun F => ?_⟩
            simp [mean_map, Distr.all, mean_bind, mean_sure, joined_nil_sep])
        (by simpa using h)
      exact h2

end Verif
