import Verif.Props.Chances
import Mathlib.Data.List.Permutation
import Mathlib.Data.List.Nodup
/-! How likely the results of `random.shuffle` are. -/

namespace Verif
open Spec Props
variable {W α β : Type} {r : Rng W}

/-- How the draws of the loop of `random.shuffle` can come out, and the results. -/
def shuffleEvents : Nat → List α → List (Event × List α)
  | 0, l => [([], l)]
  | i + 1, l => (List.range (i + 2)).flatMap fun k =>
      (shuffleEvents i (swapAt l (i + 1) k)).map fun y => (.below (i + 1) k :: y.1, y.2)

theorem shuffleEvents_proper (i : Nat) (l : List α) : ∀ y ∈ shuffleEvents i l, ∀ c ∈ y.1, c.Proper := by
  induction i generalizing l with
  | zero => simp [shuffleEvents]
  | succ i ih =>
    intro y hy c hc
    simp only [shuffleEvents, List.mem_flatMap, List.mem_range, List.mem_map] at hy
    obtain ⟨k, hk, z, hz, rfl⟩ := hy
    rcases List.mem_cons.1 hc with rfl | hc
    · simp only [Condition.Proper]; omega
    · exact ih _ z hz c hc

theorem shuffleEvents_chance (i : Nat) (l : List α) :
    ∀ y ∈ shuffleEvents i l, Event.chance y.1 = 1 / ((i + 1).factorial : Rat) := by
  induction i generalizing l with
  | zero => simp [shuffleEvents, Event.chance]
  | succ i ih =>
    intro y hy
    simp only [shuffleEvents, List.mem_flatMap, List.mem_range, List.mem_map] at hy
    obtain ⟨k, hk, z, hz, rfl⟩ := hy
    have := ih _ z hz
    simp only [Event.chance, List.map_cons, List.prod_cons, Condition.chance] at this ⊢
    rw [this, Nat.factorial_succ (i + 1)]
    push_cast
    rw [one_div_mul_one_div]

theorem shuffleEvents_one (r : Rng W) (i : Nat) (l : List α) (w : W) :
    (shuffleEvents i l).countP (fun y => Event.happens r y.1 w) = 1 := by
  induction i generalizing l w with
  | zero => simp [shuffleEvents, Event.happens, Event.after]
  | succ i ih =>
    simp only [shuffleEvents]
    rw [countP_flatMap (q := fun k => decide ((r.below (i + 1) w).1.val = k))]
    · rw [show (fun k => decide ((r.below (i + 1) w).1.val = k)) = fun k => k == (r.below (i + 1) w).1.val from by
        funext k; rw [Bool.eq_iff_iff, decide_eq_true_iff, beq_iff_eq]; exact eq_comm]
      rw [← List.count, List.count_eq_one_of_mem List.nodup_range]
      exact List.mem_range.2 (r.below (i + 1) w).1.2
    · intro k _
      rw [List.countP_map]
      by_cases h : (r.below (i + 1) w).1.val = k
      · rw [if_pos (by simpa using h)]
        simp only [Function.comp_def, Event.happens, Event.after, if_pos h]
        exact ih _ _
      · simp [Function.comp_def, Event.happens, Event.after, h]

theorem shuffleEvents_run (r : Rng W) (i : Nat) (l : List α) (w : W) :
    ∀ y ∈ shuffleEvents i l, Event.happens r y.1 w = true → (r.shuffleLoop i l w).1 = y.2 := by
  induction i generalizing l w with
  | zero => simp [shuffleEvents, Rng.shuffleLoop]
  | succ i ih =>
    intro y hy hw
    simp only [shuffleEvents, List.mem_flatMap, List.mem_range, List.mem_map] at hy
    obtain ⟨k, hk, z, hz, rfl⟩ := hy
    simp only [Event.happens, Event.after] at hw
    split at hw
    · rename_i h
      simp only [Rng.shuffleLoop, h]
      exact ih _ _ z hz hw
    · simp at hw

theorem swapAt_map (f : α → β) (l : List α) (i j : Nat) : swapAt (l.map f) i j = (swapAt l i j).map f := by
  simp only [swapAt, List.getElem?_map]
  cases l[i]? <;> cases l[j]? <;> simp [List.map_set]

theorem shuffleEvents_map (f : α → β) (i : Nat) (l : List α) :
    shuffleEvents i (l.map f) = (shuffleEvents i l).map fun y => (y.1, y.2.map f) := by
  induction i generalizing l with
  | zero => simp [shuffleEvents]
  | succ i ih =>
    simp only [shuffleEvents, swapAt_map, ih, List.map_flatMap, List.map_map, Function.comp_def]

theorem shuffleEvents_length (i : Nat) (l : List α) : (shuffleEvents i l).length = (i + 1).factorial := by
  induction i generalizing l with
  | zero => simp [shuffleEvents]
  | succ i ih =>
    simp only [shuffleEvents, List.length_flatMap, List.length_map, ih]
    simp [Nat.factorial_succ (i + 1)]

theorem swapAt_getElem? (l : List α) (i j m : Nat) (hi : i < l.length) (hj : j < l.length) :
    (swapAt l i j)[m]? = if m = j then l[i]? else if m = i then l[j]? else l[m]? := by
  simp only [swapAt, List.getElem?_eq_getElem hi, List.getElem?_eq_getElem hj]
  by_cases h1 : m = j
  · subst h1; simp [hj]
  · rw [List.getElem?_set_ne (Ne.symm h1), if_neg h1]
    by_cases h2 : m = i
    · subst h2; simp [hi]
    · rw [List.getElem?_set_ne (Ne.symm h2), if_neg h2]

theorem swapAt_length (l : List α) (i j : Nat) : (swapAt l i j).length = l.length := by
  unfold swapAt
  split <;> simp

theorem shuffleEvents_rest (i : Nat) (l : List α) (hi : i < l.length) :
    ∀ y ∈ shuffleEvents i l, ∀ m, i < m → y.2[m]? = l[m]? := by
  induction i generalizing l with
  | zero => simp [shuffleEvents]
  | succ i ih =>
    intro y hy m hm
    simp only [shuffleEvents, List.mem_flatMap, List.mem_range, List.mem_map] at hy
    obtain ⟨k, hk, z, hz, rfl⟩ := hy
    rw [ih _ (by rw [swapAt_length]; omega) z hz m (by omega),
      swapAt_getElem? _ _ _ _ hi (by omega), if_neg (by omega), if_neg (by omega)]

theorem shuffleEvents_perm (i : Nat) (l : List α) : ∀ y ∈ shuffleEvents i l, y.2.Perm l := by
  induction i generalizing l with
  | zero => simp [shuffleEvents]
  | succ i ih =>
    intro y hy
    simp only [shuffleEvents, List.mem_flatMap, List.mem_range, List.mem_map] at hy
    obtain ⟨k, hk, z, hz, rfl⟩ := hy
    exact (ih _ z hz).trans (swapAt_perm _ _ _)

theorem shuffleEvents_nodup (i : Nat) (l : List α) (hl : l.Nodup) (hi : i < l.length) :
    ((shuffleEvents i l).map (·.2)).Nodup := by
  induction i generalizing l with
  | zero => simp [shuffleEvents]
  | succ i ih =>
    simp only [shuffleEvents, List.map_flatMap, List.map_map, Function.comp_def]
    rw [List.nodup_flatMap]
    refine ⟨fun k hk => ih _ ((swapAt_perm _ _ _).nodup_iff.2 hl) (by rw [swapAt_length]; omega), ?_⟩
    have key : ∀ k, k < i + 2 → ∀ o ∈ (shuffleEvents i (swapAt l (i + 1) k)).map (·.2), o[i + 1]? = l[k]? := by
      intro k hk o ho
      obtain ⟨y, hy, rfl⟩ := List.mem_map.1 ho
      rw [shuffleEvents_rest i _ (by rw [swapAt_length]; omega) y hy _ (by omega),
        swapAt_getElem? _ _ _ _ hi (by omega)]
      split
      · rename_i h; rw [h]
      · simp
    refine List.Nodup.pairwise_of_forall_ne List.nodup_range fun k hk k' hk' hne => ?_
    rw [List.mem_range] at hk hk'
    intro o ho ho'
    have h1 := key k hk o ho
    rw [key k' hk' o ho', List.getElem?_eq_getElem (by omega), List.getElem?_eq_getElem (by omega),
      Option.some.injEq] at h1
    exact hne ((hl.getElem_inj_iff).1 h1).symm

/-- The results of the loop over a whole list are all arrangements. -/
theorem shuffleEvents_all (l : List α) :
    ((shuffleEvents (l.length - 1) l).map (·.2)).Perm l.permutations := by
  by_cases h0 : l = []
  · subst h0; simp [shuffleEvents]
  have hpos : 0 < l.length := List.length_pos_of_ne_nil h0
  -- positions first
  have hr : ((shuffleEvents (l.length - 1) (List.finRange l.length)).map (·.2)).Perm
      (List.finRange l.length).permutations := by
    refine List.Subperm.perm_of_length_le (List.subperm_of_subset
      (shuffleEvents_nodup _ _ (List.nodup_finRange _) (by simp; omega)) ?_) ?_
    · intro o ho
      obtain ⟨y, hy, rfl⟩ := List.mem_map.1 ho
      exact List.mem_permutations.2 (shuffleEvents_perm _ _ y hy)
    · rw [List.length_permutations, List.length_map, shuffleEvents_length, List.length_finRange,
        Nat.sub_add_cancel hpos]
  have := hr.map (List.map l.get)
  rw [List.map_permutations, List.map_map] at this
  have e : (List.finRange l.length).map l.get = l := by
    exact List.map_get_finRange l
  rw [e] at this
  refine List.Perm.trans (List.Perm.of_eq ?_) this
  conv_lhs => rw [← e]
  rw [shuffleEvents_map, List.map_map]
  rw [e]
  rfl

/-- `random.choices` without weights: independent draws, all elements equally likely. -/
theorem dis_plain_choices (hA : r.arith = .exact) (pop : List α) (hne : pop ≠ []) (k : Nat) :
    Dis1 r (r.choices pop k) Eq
      (Distr.all (List.replicate k (pop.map fun b => (b, 1 / (pop.length : Rat))))) := by
  have hpos : (0 : Rat) < pop.length := by exact_mod_cast List.length_pos_of_ne_nil hne
  induction k with
  | zero => exact .det (fun _ => rfl) rfl
  | succ k ih =>
    rw [List.replicate_succ, Distr.all]
    have e : r.choices pop (k + 1) = (do
        let v ← (fun w => match pop[((r.unit w).1.val * pop.length).floor.toNat]? with
          | none => .err .index (r.unit w).2
          | some v => .ok v (r.unit w).2 : M W α)
        let vs ← r.choices pop k
        return v :: vs) := by
      funext w
      simp only [Rng.choices, hA, Arith.exact]
      cases hp : pop[((r.unit w).1.val * pop.length).floor.toNat]? with
      | none =>
        refine (M.bind_of_err (e := .index) (w' := (r.unit w).2) ?_).symm
        simp only [hp]
      | some v =>
        symm
        dsimp only
        refine M.bind_of_ok (a := v) (w' := (r.unit w).2) ?_
        simp only [hp]
    rw [e]
    refine Dis1.bindEq (g := id) ?_ fun b _ => ?_
    · refine Dis1.draw (l := pop) (c := fun i => .unit (i / pop.length) ((i + 1 : Nat) / pop.length))
        (idx := fun w => ((r.unit w).1.val * pop.length).floor.toNat) (nxt := fun w => (r.unit w).2) ?_ ?_ ?_ ?_ ?_ ?_
      · intro i hi
        refine ⟨by positivity, ?_, ?_⟩
        · rw [div_le_div_iff_of_pos_right hpos]; push_cast; linarith
        · rw [div_le_one hpos]; exact_mod_cast hi
      · apply List.ext_getElem?
        intro i
        simp only [List.getElem?_mapIdx, List.getElem?_map, Condition.chance]
        congr 1
        funext b
        congr 1
        push_cast
        ring
      · simp [total, Function.comp_def, hpos.ne']
      · intro w
        have h1 := (r.unit w).1.2.1
        have h2 := (r.unit w).1.2.2
        have : ((r.unit w).1.val * pop.length).floor < (pop.length : Int) := by
          rw [Rat.floor_lt_iff]
          push_cast
          nlinarith
        have h3 := Rat.le_floor_iff.2 (show ((0 : Int) : Rat) ≤ (r.unit w).1.val * pop.length by
          push_cast; positivity)
        omega
      · intro i hi w
        have h1 := (r.unit w).1.2.1
        have h3 := Rat.le_floor_iff.2 (show ((0 : Int) : Rat) ≤ (r.unit w).1.val * pop.length by
          push_cast; positivity)
        have key : ((i : Rat) / pop.length ≤ (r.unit w).1.val ∧ (r.unit w).1.val < ((i + 1 : Nat) : Rat) / pop.length) ↔
            ((r.unit w).1.val * pop.length).floor.toNat = i := by
          rw [div_le_iff₀ hpos, lt_div_iff₀ hpos]
          constructor
          · rintro ⟨ha, hb⟩
            have h4 : (i : Int) ≤ ((r.unit w).1.val * pop.length).floor := Rat.le_floor_iff.2 (by exact_mod_cast ha)
            have h5 : ((r.unit w).1.val * pop.length).floor < ((i + 1 : Nat) : Int) :=
              Rat.floor_lt_iff.2 (by exact_mod_cast hb)
            omega
          · intro hi
            have h4 : (i : Int) ≤ ((r.unit w).1.val * pop.length).floor := by omega
            have h5 : ((r.unit w).1.val * pop.length).floor < ((i + 1 : Nat) : Int) := by omega
            exact ⟨by exact_mod_cast Rat.le_floor_iff.1 h4, by exact_mod_cast Rat.floor_lt_iff.1 h5⟩
        simp only [Event.after, key]
      · intro w b hb
        refine ⟨b, ?_, rfl⟩
        simp only [hb]
    · exact Dis1.map ih fun a b _ h => by rw [h]; rfl

/-! ### The manager reads its random state only when it shuffles -/

/-- The same result in a world that is changed. -/
def Res.onWorld (f : W → W) : Res W α → Res W α
  | .ok a w => .ok a (f w)
  | .err e w => .err e (f w)
  | .fuel => .fuel

/-- Code that neither reads nor changes the manager's random state, and leaves shuffling on or off. -/
structure NoRand (f : M (Mgr W) α) : Prop where
  same : ∀ s x, f { s with rand := x } = (f s).onWorld fun s => { s with rand := x }
  keeps : ∀ s a s', f s = .ok a s' → s'.shuffle = s.shuffle

theorem NoRand.pure (a : α) : NoRand (W := W) (Pure.pure a) :=
  ⟨fun _ _ => rfl, fun _ _ _ h => by cases h; rfl⟩

theorem NoRand.bind {f : M (Mgr W) α} {g : α → M (Mgr W) β} (hf : NoRand f) (hg : ∀ a, NoRand (g a)) :
    NoRand (f >>= g) := by
  constructor
  · intro s x
    show M.bind f g _ = (M.bind f g s).onWorld _
    unfold M.bind
    rw [hf.same s x]
    cases f s with
    | ok a s' => exact (hg a).same s' x
    | err e s' => rfl
    | fuel => rfl
  · intro s b s' h
    replace h : M.bind f g s = .ok b s' := h
    unfold M.bind at h
    cases h1 : f s with
    | ok a s1 => rw [h1] at h; exact ((hg a).keeps _ _ _ h).trans (hf.keeps _ _ _ h1)
    | err e s1 => rw [h1] at h; cases h
    | fuel => rw [h1] at h; cases h

theorem NoRand.getTree (cfg : MgrCfg W) : NoRand (Mgr.getTree cfg) := by
  constructor
  · intro s x
    obtain ⟨fs, heap, rand, tree, cache, sort, dedup, shuffle⟩ := s
    cases tree <;> rfl
  · intro s a s' h
    unfold Mgr.getTree at h
    cases ht : s.tree with
    | some t => simp only [ht] at h; cases h; rfl
    | none => simp only [ht] at h; cases h; rfl

theorem NoRand.textGetValues (id : Nat) : NoRand (W := W) (Mgr.textGetValues id) := by
  constructor
  · intro s x
    unfold Mgr.textGetValues
    dsimp only
    cases s.heap[id]? with
    | none => rfl
    | some o =>
      dsimp only
      cases o.cache with
      | some vs => rfl
      | none =>
        dsimp only
        cases s.fs.read o.path <;> rfl
  · intro s a s' h
    unfold Mgr.textGetValues at h
    split at h
    · cases h
    · split at h
      · cases h; rfl
      · split at h
        · cases h
        · cases h; rfl

theorem NoRand.collValues (c : WColl) : NoRand (W := W) (Mgr.collValues c) := by
  cases c with
  | list items => exact .pure _
  | text id => exact (NoRand.textGetValues id).bind fun _ => .pure _

theorem NoRand.collsValues (cs : List WColl) : NoRand (W := W) (Mgr.collsValues cs) := by
  induction cs with
  | nil => exact .pure _
  | cons c cs ih => exact (NoRand.collValues c).bind fun _ => ih.bind fun _ => .pure _

theorem NoRand.matchCollections (cfg : MgrCfg W) (w : Str) : NoRand (Mgr.matchCollections cfg w) := by
  unfold Mgr.matchCollections
  cases cleanWildcard cfg.wrap w with
  | none => exact .pure _
  | some pat => exact (NoRand.getTree cfg).bind fun _ => .pure _

theorem NoRand.lookup (cfg : MgrCfg W) (w : Str) : NoRand (Mgr.lookup cfg w) := by
  unfold Mgr.lookup
  refine (NoRand.matchCollections cfg w).bind fun colls => (NoRand.collsValues colls).bind fun values => ?_
  split
  · exact (NoRand.matchCollections cfg _).bind fun colls => NoRand.collsValues colls
  · exact .pure _

theorem NoRand.getValuesRaw (cfg : MgrCfg W) (w : Str) : NoRand (Mgr.getValuesRaw cfg w) := by
  have key : ∀ b c d, NoRand (W := W) (do
      let values ← Mgr.lookup cfg w
      let values := applyOptions b c d values
      Mgr.store w values
      return values : M (Mgr W) (List Item)) := fun b c d =>
    (NoRand.lookup cfg w).bind fun v => NoRand.bind ⟨fun _ _ => rfl, fun _ _ _ h => by cases h; rfl⟩ fun _ => .pure _
  constructor
  · intro s x
    unfold Mgr.getValuesRaw
    dsimp only
    cases s.cache.get w with
    | some v => rfl
    | none => exact (key _ _ _).same s x
  · intro s a s' h
    unfold Mgr.getValuesRaw at h
    split at h
    · cases h; rfl
    · exact (key _ _ _).keeps _ _ _ h

end Verif
