import Verif.Proofs.Chances
/-! The distribution of the first text of the random generators. -/

namespace Verif
open Spec Props
variable {W : Type} {α β γ δ : Type} {E : Env W} [hA : Fact (E.rng.arith = .exact)]

/-- The distribution of the next text of a generator. -/
def GDis (E : Env W) (g : Gen) (P : Distr Str) : Prop :=
  Dis1 E.rng ((lim E).G g) (fun a s => ∃ g', a = some (s, g')) P

theorem GDis.of_step {g : Gen} {P : Distr Str}
    (h : Dis1 E.rng (stepG E (lim E) g) (fun a s => ∃ g', a = some (s, g')) P) : GDis E g P := by
  unfold GDis
  rw [lim_G]
  exact h

theorem Distr.map_id (P : Distr α) : P.map (fun a => a) = P := by simp [Distr.map]

theorem Distr.bind_map (P : Distr α) (f : α → Distr β) (g : β → γ) :
    P.bind (fun a => (f a).map g) = (P.bind f).map g := by
  simp [Distr.bind, Distr.map, List.map_flatMap, Function.comp_def]

theorem Distr.map_map (P : Distr α) (f : α → β) (g : β → γ) : (P.map f).map g = P.map fun a => g (f a) := by
  simp [Distr.map, Function.comp_def]

theorem Distr.map_bind (P : Distr α) (f : α → β) (g : β → Distr γ) :
    (P.map f).bind g = P.bind fun a => g (f a) := by
  simp [Distr.bind, Distr.map, List.flatMap_map]

theorem Distr.bind_congr {P : Distr α} {f g : α → Distr β} (h : ∀ a ∈ outcomes P, f a = g a) :
    P.bind f = P.bind g := by
  unfold Distr.bind
  apply List.flatMap_congr
  intro x hx
  rw [h x.1 (List.mem_map.2 ⟨x, hx, rfl⟩)]

/-- A generator that yields a text, matched on. -/
theorem GDis.match {g : Gen} {P : Distr Str} (h : GDis E g P) {y : M W γ} {f : Str → Gen → M W γ}
    {R' : γ → δ → Prop} {Q : Str → Distr δ}
    (h' : ∀ s, s ∈ outcomes P → Dis E.rng (fun g' => f s g') R' (Q s)) :
    Dis1 E.rng ((lim E).G g >>= fun a => match a with
      | none => y
      | some (s, g') => f s g') R' (P.bind Q) := by
  refine Dis1.bind h fun s hs => ?_
  obtain ⟨L, h1, h2, h3⟩ := h' s hs
  refine ⟨L, h1, h2, ?_⟩
  rintro ⟨_, g', rfl⟩
  exact h3 g'

theorem GDis.next! {g : Gen} {P : Distr Str} (h : GDis E g P) :
    Dis1 E.rng ((lim E).next! g) (fun a s => a.1 = s) P := by
  rw [← Distr.map_id P, ← Distr.bind_sure]
  unfold Recs.next!
  refine Dis1.bind h fun s hs => ?_
  have : Dis E.rng (fun g' : Gen => (Pure.pure (s, g') : M W (Str × Gen))) (fun a s => a.1 = s)
      (Distr.sure s) := Dis.pure fun _ => rfl
  obtain ⟨L, h1, h2, h3⟩ := this
  refine ⟨L, h1, h2, ?_⟩
  rintro ⟨_, g', rfl⟩
  exact h3 g'

theorem dis_rotate {gs : List Gen} {Ps : List (Distr Str)} (h : List.Forall₂ (GDis E) gs Ps) :
    Dis1 E.rng ((lim E).rotate gs) (fun a ss => a.1 = ss) (Distr.all Ps) := by
  induction h with
  | nil => exact Dis.pure fun _ => rfl
  | @cons g P gs Ps h _ ih =>
    refine Dis1.bind h.next! fun s hs => ?_
    refine Dis.map (x := fun _ => (lim E).rotate gs)
      (h := fun (p : {a : Str × Gen // a.1 = s}) (q : List Str × List Gen) => (p.1.1 :: q.1, p.1.2 :: q.2))
      ih.const ?_
    rintro ⟨p, hp⟩ a b _ hR
    simp only [hp, hR]

theorem gdis_rep (s : Str) : GDis E (.rep s) (Distr.sure s) := .of_step (Dis.pure fun _ => ⟨_, rfl⟩)

theorem gdis_squash {g : Gen} {P : Distr Str} (h : GDis E g P) :
    GDis E (.squash g) (P.map squashWhitespace) := by
  refine .of_step ?_
  rw [← Distr.bind_sure]
  exact GDis.match h fun s _ => Dis.pure fun g' => ⟨_, rfl⟩

theorem gdis_zipWrap {wg ig : Gen} {P Q : Distr Str} (hw : GDis E wg P) (hi : GDis E ig Q) :
    GDis E (.zipWrap wg ig) (P.bind fun w => Q.map (wrapWith w)) := by
  refine .of_step ?_
  refine GDis.match hw fun w _ => ?_
  rw [← Distr.bind_sure]
  refine Dis.bind (x := fun _ : Gen => (lim E).G ig) (Dis1.const hi) fun i hi' => ?_
  have : Dis E.rng (fun p : Gen × Gen => (Pure.pure (some (wrapWith w i, Gen.zipWrap p.1 p.2)) :
      M W (Option (Str × Gen)))) (fun a s => ∃ g', a = some (s, g')) (Distr.sure (wrapWith w i)) :=
    Dis.pure fun _ => ⟨_, rfl⟩
  obtain ⟨L, h1, h2, h3⟩ := this
  refine ⟨L, h1, h2, ?_⟩
  rintro ⟨⟨wg', x⟩, hx⟩
  obtain ⟨ig', rfl⟩ : ∃ ig', x = some (i, ig') := hx
  exact h3 (wg', ig')

theorem gdis_seqNF {sep : Str} {gs : List Gen} {Ps : List (Distr Str)} (h : List.Forall₂ (GDis E) gs Ps) :
    GDis E (.seqNF sep gs) ((Distr.all Ps).map (joined sep)) := by
  refine .of_step ?_
  refine Dis1.map (dis_rotate h) ?_
  rintro a b _ rfl
  exact ⟨_, rfl⟩

/-- Starting a sampler. -/
theorem gdis_start {ctx : Ctx} {c : Cmd} {N : Distr β} {g : β → Gen} {P : β → Distr Str}
    (hc : ∀ s m, c ≠ .lit s m) (h : Dis1 E.rng (startG E (lim E) ctx c) (fun a b => a = g b) N)
    (hg : ∀ b, b ∈ outcomes N → GDis E (g b) (P b)) : GDis E (.start ctx c) (N.bind P) := by
  refine .of_step ?_
  have : stepG E (lim E) (.start ctx c) = (startG E (lim E) ctx c >>= fun g => (lim E).G g) := by
    cases c with
    | lit s m => exact absurd rfl (hc s m)
    | _ => rfl
  rw [this]
  exact Dis1.bindEq h hg

theorem gdis_start1 {ctx : Ctx} {c : Cmd} {g : Gen} {P : Distr Str}
    (hc : ∀ s m, c ≠ .lit s m) (h : ∀ w, startG E (lim E) ctx c w = .ok g w)
    (hg : GDis E g P) : GDis E (.start ctx c) P := by
  rw [← Distr.sure_bind () fun _ : Unit => P]
  exact gdis_start (g := fun _ => g) hc (.det h rfl) fun _ _ => hg

theorem gdis_mkGens {ctx : Ctx} {cs : List Cmd} {Ps : List (Distr Str)}
    (h : List.Forall₂ (fun c P => ∃ g, mkGen E.unknown ctx c = .ok g ∧ GDis E g P) cs Ps) :
    ∃ gs, mkGens E.unknown ctx cs = .ok gs ∧ List.Forall₂ (GDis E) gs Ps := by
  induction h with
  | nil => exact ⟨[], rfl, .nil⟩
  | cons h _ ih =>
    obtain ⟨g, h1, h2⟩ := h
    obtain ⟨gs, h3, h4⟩ := ih
    exact ⟨g :: gs, by simp [mkGens, h1, h3], .cons h2 h4⟩

theorem dis_sampleFirst {ctx : Ctx} {p : Prompt} {P : Distr Str}
    (h : ∃ g, sampleGen E ctx p = .ok g ∧ GDis E g P) :
    Dis1 E.rng ((lim E).sampleFirst E ctx p) (fun a s => a = s) P := by
  obtain ⟨g, h1, h2⟩ := h
  refine Dis1.lift h1 ?_
  rw [← Distr.map_id P]
  exact Dis1.map h2.next! fun _ _ _ h => h

theorem dis_randint {n : Nat} {lo hi : Int} (h0 : 0 ≤ max lo hi) :
    Dis1 E.rng (E.rng.randint (adjustBounds n lo hi).1 (adjustBounds n lo hi).2)
      (fun a (k : Nat) => a = (k : Int) ∧ (k : Int) ≤ (adjustBounds n lo hi).2) (counts n lo hi) := by
  have h1 : (adjustBounds n lo hi).1 = ((max 0 (min (min lo hi) n)).toNat : Int) := by
    simp only [adjustBounds, normBounds]; omega
  have h2 : (adjustBounds n lo hi).2 = ((max 0 (min (max lo hi) n)).toNat : Int) := by
    simp only [adjustBounds, normBounds]; omega
  rw [h1, h2]
  unfold counts
  dsimp only
  generalize ha : (max 0 (min (min lo hi) n)).toNat = a
  generalize hb : (max 0 (min (max lo hi) n)).toNat = b
  have hab : a ≤ b := by omega
  have hd : ((b : Int) - a).toNat = b - a := by omega
  have hx := Dis1.below (r := E.rng) (x := E.rng.randint a b)
    (R := fun v (k : Nat) => v = (k : Int) ∧ (k : Int) ≤ b)
    (l := (List.range (b - a + 1)).map (a + ·)) (n := b - a) (by simp) ?_
  · rw [List.map_map] at hx
    exact hx
  · intro w k hk
    rw [List.getElem?_map] at hk
    obtain ⟨i, hi, rfl⟩ := Option.map_eq_some_iff.1 hk
    obtain ⟨hi1, hi2⟩ := List.getElem?_eq_some_iff.1 hi
    rw [List.getElem_range] at hi2
    refine ⟨((a + i : Nat) : Int), ?_, rfl, ?_⟩
    · unfold Rng.randint
      rw [if_pos (by omega)]
      dsimp only
      rw [hd, hi2]
      congr 1
    · rw [List.length_range] at hi1; omega

theorem choose_eq_loop' [DecidableEq α] {r : Rng W} {vs : List α} {ws : List Rat} {k : Nat}
    (hl : ws.length = vs.length) (h2 : 2 ≤ vs.length) (hk : k ≤ vs.length) :
    chooseWithoutReplacement r vs ws k = chooseLoop r k vs ws := by
  unfold chooseWithoutReplacement
  rw [if_neg (by omega)]
  have he : ws.isEmpty = false := by
    cases ws with
    | nil => simp at hl; omega
    | cons => rfl
  rw [he]
  simp only [Bool.false_eq_true, if_false]
  rw [if_neg (by simpa using hl.symm)]
  match vs, h2, hl with
  | a :: b :: l, _, hl => simp

theorem joined_nil (sep : Str) : joined sep [] = [] := by
  unfold joined removeprefix removesuffix pyJoin
  by_cases hse : sep = [] <;> simp [hse, startsWith, endsWith]

theorem splits_map (f : α → β) (l : List α) :
    splits (l.map f) = (splits l).map fun x => (f x.1, x.2.map f) := by
  induction l with
  | nil => rfl
  | cons a l ih => simp [splits, ih, Function.comp_def]

theorem total_map (f : α → β) (l : List (α × Rat)) : total (l.map fun p => (f p.1, p.2)) = total l := by
  simp [total, Function.comp_def]

theorem pickings_map (f : α → β) (k : Nat) (l : List (α × Rat)) :
    pickings k (l.map fun p => (f p.1, p.2)) = (pickings k l).map (List.map f) := by
  induction k generalizing l with
  | zero => rfl
  | succ k ih =>
    simp only [pickings, splits_map, total_map, List.flatMap_map, ih, Distr.map, List.map_flatMap, List.map_map]
    rfl

theorem counts_le {n : Nat} {lo hi : Int} {k : Nat} (h : k ∈ outcomes (counts n lo hi)) :
    k ≤ n ∧ ((k : Int) ≤ max 0 (max lo hi)) := by
  unfold counts outcomes at h
  simp only [List.map_map, List.mem_map, List.mem_range, Function.comp_def] at h
  obtain ⟨i, hi, rfl⟩ := h
  omega

theorem pickings_mem {k : Nat} {l : List (α × Rat)} {qs : List α} (h : qs ∈ outcomes (pickings k l)) :
    ∀ q ∈ qs, q ∈ l.map (·.1) := by
  induction k generalizing l qs with
  | zero =>
    simp only [pickings, Distr.sure, outcomes, List.map_cons, List.map_nil, List.mem_singleton] at h
    subst h
    simp
  | succ k ih =>
    obtain ⟨x, hx, rfl⟩ := List.mem_map.1 h
    obtain ⟨y, hy, hx⟩ := List.mem_flatMap.1 hx
    obtain ⟨z, hz, rfl⟩ := List.mem_map.1 hx
    obtain ⟨i, hi, rfl⟩ := mem_splits hy
    intro q hq
    rcases List.mem_cons.1 hq with rfl | hq
    · exact List.mem_map.2 ⟨_, List.getElem_mem hi, rfl⟩
    · have := ih (List.mem_map.2 ⟨z, hz, rfl⟩) q hq
      exact ((List.eraseIdx_sublist l i).map _).subset this

theorem gdis_randVar {ctx : Ctx} {opts : List (Cmd × Rat)} {Ds : List (Distr Str)} {lo hi : Int} {sep : Str}
    (hlen : 2 ≤ opts.length) (h0 : 0 ≤ max lo hi) (hnn : ∀ p ∈ opts, 0 ≤ p.2) (hpos : 0 < total opts)
    (h2 : 2 ≤ max lo hi → (∀ p ∈ opts, 0 < p.2) ∧ (opts.map (·.1)).Nodup ∧ Together (opts.map (·.2)))
    (h : List.Forall₂ (fun c P => ∃ g, mkGen E.unknown ctx c = .ok g ∧ GDis E g P) (opts.map (·.1)) Ds) :
    GDis E (.randVar ctx opts lo hi sep) (variantDist (Ds.zip (opts.map (·.2))) lo hi sep) := by
  have hl : Ds.length = opts.length := by have := h.length_eq; simpa using this.symm
  -- commands together with their distributions
  let l : List ((Cmd × Distr Str) × Rat) := ((opts.map (·.1)).zip Ds).zip (opts.map (·.2))
  have l1 : l.map (fun p => p.1.1) = opts.map (·.1) := by
    apply List.ext_getElem <;> simp [l, hl]
  have l2 : l.map (·.2) = opts.map (·.2) := by
    apply List.ext_getElem <;> simp [l, hl]
  have l3 : l.map (fun p => (p.1.2, p.2)) = Ds.zip (opts.map (·.2)) := by
    apply List.ext_getElem <;> simp [l, hl]
  have l4 : l.map (·.1) = (opts.map (·.1)).zip Ds := by
    apply List.ext_getElem <;> simp [l, hl]
  have l5 : ∀ p ∈ l, ∃ q ∈ opts, p.2 = q.2 := by
    intro p hp
    have : p.2 ∈ opts.map (·.2) := by rw [← l2]; exact List.mem_map.2 ⟨p, hp, rfl⟩
    obtain ⟨q, hq, he⟩ := List.mem_map.1 this
    exact ⟨q, hq, he.symm⟩
  have l6 : total l = total opts := by unfold total; rw [l2]
  have l7 : ∀ q ∈ l.map (·.1), ∃ g, mkGen E.unknown ctx q.1 = .ok g ∧ GDis E g q.2 := by
    intro q hq
    rw [l4] at hq
    exact (List.forall₂_iff_zip.1 h).2 hq
  refine .of_step ?_
  unfold variantDist
  rw [← l3, List.length_map, show l.length = opts.length by simp [l, hl]]
  simp only [stepG]
  refine Dis1.bind (dis_randint h0) fun k hk => ?_
  obtain ⟨hk1, hk2⟩ := counts_le hk
  have hsel := dis_chooseLoop (r := E.rng) (f := fun x : Cmd × Distr Str => x.1) k (l := l)
    (fun p hp => by obtain ⟨q, hq, he⟩ := l5 p hp; rw [he]; exact hnn q hq) (fun _ => by rw [l6]; exact hpos)
    (fun hk => by
      obtain ⟨a, b, c⟩ := h2 (by omega)
      refine ⟨by simp [l, hl]; omega, fun p hp => ?_, by rw [l1]; exact b, by rw [l2]; exact c⟩
      obtain ⟨q, hq, he⟩ := l5 p hp; rw [he]; exact a q hq)
  rw [l1, l2, ← choose_eq_loop' (by simp) (by simpa using hlen) (by simpa using hk1)] at hsel
  rw [pickings_map, Distr.map_bind, ← Distr.bind_map]
  have key : Dis1 E.rng (do
      let sel ← chooseWithoutReplacement E.rng (opts.map (·.1)) (opts.map (·.2)) (k : Int)
      let gens ← M.lift (mkGens E.unknown ctx sel)
      match gens with
      | [] => return some ([], Gen.randVar ctx opts (adjustBounds opts.length lo hi).1
          (adjustBounds opts.length lo hi).2 sep)
      | gens => do
        let (vs, _) ← (lim E).rotate gens
        return some (joined sep vs, Gen.randVar ctx opts (adjustBounds opts.length lo hi).1
          (adjustBounds opts.length lo hi).2 sep)) (fun a s => ∃ g', a = some (s, g'))
      ((pickings k l).bind fun qs => (Distr.all (qs.map (·.2))).map (joined sep)) := by
    refine Dis1.bind hsel fun qs hqs => ?_
    have hf : List.Forall₂ (fun c P => ∃ g, mkGen E.unknown ctx c = .ok g ∧ GDis E g P)
        (qs.map (·.1)) (qs.map (·.2)) := by
      rw [List.forall₂_map_left_iff, List.forall₂_map_right_iff, List.forall₂_same]
      exact fun q hq => l7 q (pickings_mem hqs q hq)
    obtain ⟨gs, hgs, hgd⟩ := gdis_mkGens hf
    have hb : Dis1 E.rng (do
        let gens ← M.lift (mkGens E.unknown ctx (qs.map (·.1)))
        match gens with
        | [] => return some ([], Gen.randVar ctx opts (adjustBounds opts.length lo hi).1
            (adjustBounds opts.length lo hi).2 sep)
        | gens => do
          let (vs, _) ← (lim E).rotate gens
          return some (joined sep vs, Gen.randVar ctx opts (adjustBounds opts.length lo hi).1
            (adjustBounds opts.length lo hi).2 sep)) (fun a s => ∃ g', a = some (s, g'))
        ((Distr.all (qs.map (·.2))).map (joined sep)) := by
      refine Dis1.lift hgs ?_
      cases gs with
      | nil =>
        have hq : qs.map (·.2) = [] := by
          have := hgd.length_eq
          exact List.length_eq_zero_iff.1 this.symm
        rw [hq]
        refine Dis.pure (b := joined sep []) fun _ => ⟨_, by rw [joined_nil]⟩
      | cons g gs =>
        refine Dis1.map (dis_rotate hgd) ?_
        rintro a b _ rfl
        exact ⟨_, rfl⟩
    obtain ⟨L, h1, h2, h3⟩ := hb
    refine ⟨L, h1, h2, ?_⟩
    rintro ⟨_, rfl, -⟩
    exact h3 ()
  obtain ⟨L, h1, h2, h3⟩ := key
  refine ⟨L, h1, h2, ?_⟩
  rintro ⟨_, rfl, hkb⟩
  dsimp only
  rw [show min (adjustBounds opts.length lo hi).2 (k : Int) = k by omega]
  exact h3 ()

theorem oneOf_equal {l : List (α × Rat)} {w : Rat} (hw : 0 < w) (h : ∀ p ∈ l, p.2 = w) :
    oneOf l = l.map fun p => (p.1, 1 / (l.length : Rat)) := by
  have ht : ∀ l : List (α × Rat), (∀ p ∈ l, p.2 = w) → total l = l.length * w := by
    intro l h
    induction l with
    | nil => simp [total]
    | cons a l ih =>
      rw [total_cons, ih fun p hp => h p (by simp [hp]), h a (by simp), List.length_cons]
      push_cast
      ring
  unfold oneOf
  apply List.map_congr_left
  intro p hp
  have hl : (l.length : Rat) ≠ 0 := by
    have : 0 < l.length := List.length_pos_of_mem hp
    exact_mod_cast this.ne'
  rw [ht l h, h p hp]
  congr 1
  field_simp

theorem dis_weightedNext {items : List Item} (hnn : ∀ i ∈ items, 0 ≤ i.weight.getD 1)
    (hpos : ∃ i ∈ items, 0 < i.weight.getD 1) :
    Dis1 E.rng (weightedNext E.rng items []) (fun a i => a.1 = i.content)
      (oneOf (items.map fun i => (i, i.weight.getD 1))) := by
  have hnn' : ∀ p ∈ items.map fun i => (i, i.weight.getD 1), 0 ≤ p.2 := by
    intro p hp
    obtain ⟨i, hi, rfl⟩ := List.mem_map.1 hp
    exact hnn i hi
  have hpos' : 0 < total (items.map fun i => (i, i.weight.getD 1)) := by
    refine total_pos hnn' ?_
    obtain ⟨i, hi, h⟩ := hpos
    exact ⟨_, List.mem_map.2 ⟨i, hi, rfl⟩, h⟩
  unfold weightedNext
  rw [hA.out]
  by_cases hv : hasVariedWeights items = true
  · rw [hv]
    simp only [Bool.not_true, Bool.false_eq_true, if_false]
    have hd := dis_choices (r := E.rng) (l := items.map fun i => (i, i.weight.getD 1))
      (pop := items.map Item.content) (f := Item.content) (by simp [Function.comp_def]) hnn' hpos' 9
    have e : (items.map fun i => (i, i.weight.getD 1)).map (·.2) = items.map Item.w := by
      simp [Function.comp_def, Item.w]
    rw [e] at hd
    rw [← Distr.map_id (oneOf _), ← Distr.bind_sure]
    refine Dis1.bind hd fun i _ => ?_
    have : Dis E.rng (fun buf : List Str => (Pure.pure (i.content, buf) : M W (Str × List Str)))
        (fun a i => a.1 = i.content) (Distr.sure i) := Dis.pure fun _ => rfl
    obtain ⟨L, h1, h2, h3⟩ := this
    refine ⟨L, h1, h2, ?_⟩
    rintro ⟨_, vs, rfl, -⟩
    exact h3 vs
  · have hv' : hasVariedWeights items = false := by simpa using hv
    rw [hv']
    simp only [Bool.not_false, if_true]
    match items, hpos, hv' with
    | i :: is, hpos, hv' =>
      have hall : ∀ j ∈ i :: is, j.w = i.w := by
        simp only [hasVariedWeights, List.any_eq_false, decide_eq_true_eq, not_not] at hv'
        intro j hj
        rcases List.mem_cons.1 hj with rfl | hj
        · rfl
        · exact hv' j hj
      have hi0 : 0 < i.w := by
        obtain ⟨j, hj, h⟩ := hpos
        rw [← hall j hj]
        exact h
      rw [oneOf_equal hi0 (fun p hp => by
        obtain ⟨j, hj, rfl⟩ := List.mem_map.1 hp
        exact hall j hj), List.map_map, List.length_map]
      have hb := Dis1.below (r := E.rng) (x := E.rng.choice ((i :: is).map Item.content))
        (R := fun a j => a = j.content) (l := i :: is) (n := is.length) (by simp) ?_
      · have hm := Dis1.map (R' := fun (a : Str × List Str) (j : Item) => a.1 = j.content)
          (h := fun v : Str => (v, ([] : List Str))) (k := fun j => j) hb ?_
        · rw [Distr.map_id] at hm
          exact hm
        · rintro a b _ rfl
          rfl
      · intro w j hj
        refine ⟨j.content, ?_, rfl⟩
        simp only [Rng.choice, List.map_cons]
        rw [List.length_map, ← List.map_cons (f := Item.content), List.getD_eq_getElem?_getD, List.getElem?_map, hj]
        rfl

theorem mem_oneOf {l : List (α × Rat)} {a : α} (h : a ∈ outcomes (oneOf l)) : a ∈ l.map (·.1) := by
  simpa [outcomes, oneOf, Function.comp_def] using h

theorem gdis_randWild {ctx : Ctx} {items : List Item} {P : Item → Distr Str}
    (hnn : ∀ i ∈ items, 0 ≤ i.weight.getD 1) (hpos : ∃ i ∈ items, 0 < i.weight.getD 1)
    (h : ∀ i ∈ items, ∃ g, sampleGen E ctx (.inl i.content) = .ok g ∧ GDis E g (P i)) :
    GDis E (.randWild ctx items []) ((oneOf (items.map fun i => (i, i.weight.getD 1))).bind P) := by
  refine .of_step ?_
  simp only [stepG]
  refine Dis1.bind (dis_weightedNext hnn hpos) fun i hi => ?_
  have hi' : i ∈ items := by simpa [Function.comp_def] using mem_oneOf hi
  obtain ⟨g, hg, hd⟩ := h i hi'
  have hb : Dis E.rng (fun buf : List Str => (do
      match ← (lim E).G g with
      | some (v, _) => return some (v, .randWild ctx items buf)
      | none => (lim E).G (.randWild ctx items buf) : M W (Option (Str × Gen))))
      (fun a s => ∃ g', a = some (s, g')) (P i) := by
    rw [← Distr.map_id (P i), ← Distr.bind_sure]
    refine Dis.bind (x := fun _ : List Str => (lim E).G g) (Dis1.const hd) fun s _ => ?_
    have : Dis E.rng (fun buf : List Str => (Pure.pure (some (s, Gen.randWild ctx items buf)) :
        M W (Option (Str × Gen)))) (fun a s => ∃ g', a = some (s, g')) (Distr.sure s) :=
      Dis.pure fun _ => ⟨_, rfl⟩
    obtain ⟨L, h1, h2, h3⟩ := this
    refine ⟨L, h1, h2, ?_⟩
    rintro ⟨⟨buf, x⟩, hx⟩
    obtain ⟨g', rfl⟩ : ∃ g', x = some (s, g') := hx
    exact h3 buf
  obtain ⟨L, h1, h2, h3⟩ := hb
  refine ⟨L, h1, h2, ?_⟩
  rintro ⟨⟨v, buf⟩, hv⟩
  have hv : v = i.content := hv
  subst hv
  dsimp only
  rw [hg]
  exact h3 buf

theorem gdis_mkGen_of_start {vars : List (Str × Cmd)} {being : List Str} {c : Cmd} {P : Distr Str}
    (hm : c.method ≠ some .cyc) (hc : ∀ n d, c ≠ .access n d) (ha : ∀ n v i o, c ≠ .assign n v i o)
    (h : GDis E (.start ⟨.random, vars, being⟩ c) P) :
    ∃ g, mkGen E.unknown ⟨.random, vars, being⟩ c = .ok g ∧ GDis E g P := by
  have hn : nest .random c.method = .random := by
    rcases hm' : c.method with _ | m
    · rfl
    · cases m with
      | random => rfl
      | comb => rfl
      | cyc => exact absurd hm' hm
  refine ⟨_, ?_, h⟩
  rw [mkGen_outcome (ctx := ⟨.random, vars, being⟩) (.target hc)]
  cases c with
  | assign n v i o => exact absurd rfl (ha n v i o)
  | wrap a b m =>
    simp only [outcomeGen, effMethod_eq_nest]
    rw [if_neg (by rw [hn]; simp), hn]
  | access n d => exact absurd rfl (hc n d)
  | _ => simp only [outcomeGen, effMethod_eq_nest, hn]

theorem assign_fresh {ctx : Ctx} {name : Str} {o : Bool} (ho : o = true ∨ ctx.vars.lookup name = none) :
    (if o = true then none else ctx.vars.lookup name) = none := by
  rcases ho with rfl | h
  · rfl
  · rw [h]; split <;> rfl

theorem dis_assign {ctx : Ctx} {name : Str} {value : Cmd} {P : Distr Str} {o : Bool}
    (ho : o = true ∨ ctx.vars.lookup name = none) (hv : ∀ s m, value ≠ .lit s m)
    (h : ∃ g, mkGen E.unknown ctx value = .ok g ∧ GDis E g P) :
    Dis1 E.rng ((lim E).assign E ctx name value true o) (fun c s => c = .lit s none) P := by
  obtain ⟨g, h1, h2⟩ := h
  unfold Recs.assign
  rw [assign_fresh ho]
  dsimp only
  rw [if_pos rfl]
  have key : Dis1 E.rng (do
      let g ← M.lift (mkGen E.unknown ctx value)
      let (v, _) ← (lim E).next! g
      return Cmd.lit v none : M W Cmd) (fun c s => c = .lit s none) P := by
    refine Dis1.lift h1 ?_
    rw [← Distr.map_id P]
    refine Dis1.map h2.next! ?_
    rintro a b _ rfl
    rfl
  cases value with
  | lit s m => exact absurd rfl (hv s m)
  | _ => exact key

mutual
theorem chance_dis {vars : List (Str × Cmd)} {being : List Str} {c : Cmd} {P : Distr Str}
    (h : Chance E vars being c P) :
    ∃ g, mkGen E.unknown ⟨.random, vars, being⟩ c = .ok g ∧ GDis E g P := by
  match h with
  | .cmd hm hin =>
    refine gdis_mkGen_of_start hm ?_ ?_ (chanceIn_dis hin)
    · rintro n d rfl; cases hin
    · rintro n v i o rfl; cases hin
  | .access hr hb h' =>
    obtain ⟨g, hg, hl⟩ := chance_dis h'
    refine ⟨g, ?_, hl⟩
    obtain ⟨o, ho⟩ := chain_total E.unknown vars (_ :: being) _
    rw [mkGen_outcome (ctx := ⟨.random, vars, being⟩) (.step hr hb ho), ← hg,
      mkGen_outcome (ctx := ⟨.random, vars, _ :: being⟩) ho]
    cases o <;> rfl
theorem chanceAll_dis {vars : List (Str × Cmd)} {being : List Str}
    {cs : List Cmd} {Ps : List (Distr Str)} (h : ChanceAll E vars being cs Ps) :
    List.Forall₂ (fun c P => ∃ g, mkGen E.unknown ⟨.random, vars, being⟩ c = .ok g ∧ GDis E g P) cs Ps := by
  match h with
  | .nil => exact .nil
  | .cons h1 h2 => exact .cons (chance_dis h1) (chanceAll_dis h2)
theorem chanceIn_dis {vars : List (Str × Cmd)} {being : List Str} {c : Cmd} {P : Distr Str}
    (h : ChanceIn E vars being c P) : GDis E (.start ⟨.random, vars, being⟩ c) P := by
  match h with
  | .lit => exact .of_step (Dis.pure fun _ => ⟨_, rfl⟩)
  | .seq (toks' := toks') (sep := sep) (N := N) (Ds := Ds) hA hall =>
    have h1 := chanceAssign_dis hA
    have h2 : ∀ new, ∃ gs : List Gen, new ∈ outcomes N →
        mkGens E.unknown ⟨.random, new ++ vars, being⟩ toks' = .ok gs ∧
          List.Forall₂ (GDis E) gs (Ds new) := by
      intro new
      by_cases hn : new ∈ outcomes N
      · obtain ⟨x, hx, rfl⟩ := List.mem_map.1 hn
        obtain ⟨gs, hg⟩ := gdis_mkGens (chanceAll_dis (hall x hx))
        exact ⟨gs, fun _ => hg⟩
      · exact ⟨[], fun h => absurd h hn⟩
    choose gs hgs using h2
    refine gdis_start (g := fun new => .seqNF sep (gs new)) (by simp) ?_
      fun new hn => gdis_seqNF (hgs new hn).2
    rw [← Distr.map_id N, ← Distr.bind_sure]
    refine Dis1.bindEq (g := fun new => (toks', new)) h1 fun new hn => ?_
    exact Dis1.lift (hgs new hn).1 (Dis.pure fun _ => rfl)
  | .variant (opts := opts) (lo := lo) (hi := hi) (sep := sep) hlen h0 hnn hpos h2 hall =>
    refine gdis_start1 (g := .randVar ⟨.random, vars, being⟩ opts lo hi sep) (by simp) ?_
      (gdis_randVar hlen h0 hnn hpos h2 (chanceAll_dis hall))
    match opts, hlen with
    | (a, _) :: b :: l, _ => cases a <;> exact fun w => rfl
  | .variantSingle (c := c) (wt := wt) hs hc =>
    obtain ⟨g, h1, h2⟩ := chance_dis hc
    refine gdis_start1 (by simp) ?_ h2
    intro w
    cases c with
    | wild p m v => exact absurd ⟨p, m, v, wt, rfl⟩ hs
    | _ => simp only [startG, h1]; rfl
  | .variantWild (m' := m') (sep := sep) (lo := lo) (hi := hi) (items := items) (cs := cs) hp hg hps hv =>
    have h1 := dis_sampleFirst (chancePrompt_dis hp)
    refine gdis_start (g := fun wc => .start ⟨.random, vars, being⟩ (Cmd.mkVariant
      ((cs wc).map (fun c => (c, 1))) (min lo (items wc).length) (min hi (items wc).length) sep m'))
      (by simp) ?_ ?_
    · refine Dis1.map (P := _) (R := fun a wc => a = Cmd.mkVariant
        ((cs wc).map (fun c => (c, 1))) (min lo (items wc).length) (min hi (items wc).length) sep m')
        (k := fun wc => wc) ?_ ?_ |> fun h => by rw [Distr.map_id] at h; exact h
      · refine Dis1.bindEq (Q := fun wc => Distr.sure wc) (g := fun wc => wc) h1 ?_ |> fun h => by
          rw [Distr.bind_sure, Distr.map_id] at h; exact h
        intro wc hwc
        obtain ⟨x, hx, rfl⟩ := List.mem_map.1 hwc
        refine Dis1.after (hg x hx) ?_
        dsimp only
        rw [mapM_of_parses (hps x hx)]
        exact Dis1.lift rfl (Dis.pure fun _ => rfl)
      · rintro a b _ rfl
        rfl
    · intro wc hwc
      obtain ⟨x, hx, rfl⟩ := List.mem_map.1 hwc
      exact chanceIn_dis (hv x hx)
  | .wild (v := v) (items := items) hp hg hnn hpos hv =>
    have h1 := dis_sampleFirst (chancePrompt_dis hp)
    refine gdis_start (g := fun wc => .randWild ⟨.random, v ++ vars, being⟩ (items wc) [])
      (by simp) ?_ ?_
    · refine Dis1.bindEq (Q := fun wc => Distr.sure wc) (g := fun wc => wc) h1 ?_ |> fun h => by
        rw [Distr.bind_sure, Distr.map_id] at h; exact h
      intro wc hwc
      obtain ⟨x, hx, rfl⟩ := List.mem_map.1 hwc
      refine Dis1.after (hg x hx) ?_
      have hne : (items x.1).isEmpty = false := by
        obtain ⟨i, hi, -⟩ := hpos x hx
        cases hi' : items x.1 with
        | nil => rw [hi'] at hi; simp at hi
        | cons => rfl
      rw [hne]
      exact Dis.pure fun _ => rfl
    · intro wc hwc
      obtain ⟨x, hx, rfl⟩ := List.mem_map.1 hwc
      exact gdis_randWild (hnn x hx) (hpos x hx) fun i hi => chancePrompt_dis (hv x hx i hi)
  | .wildMissing (p := p) hp hg =>
    have h1 := dis_sampleFirst (chancePrompt_dis hp)
    rw [← Distr.bind_sure]
    refine gdis_start (g := fun wc => .rep (E.toWildcard p)) (by simp) ?_ fun _ _ => gdis_rep _
    refine Dis1.bindEq (Q := fun wc => Distr.sure wc) (g := fun wc => wc) h1 ?_ |> fun h => by
      rw [Distr.bind_sure, Distr.map_id] at h; exact h
    intro wc hwc
    obtain ⟨x, hx, rfl⟩ := List.mem_map.1 hwc
    refine Dis1.after (hg x hx) ?_
    exact Dis.pure fun _ => rfl
  | .wrap hw hi =>
    obtain ⟨wg, h1, h2⟩ := chance_dis hw
    obtain ⟨ig, h3, h4⟩ := chance_dis hi
    refine gdis_start1 (by simp) ?_ (gdis_zipWrap h2 h4)
    intro w
    simp only [startG, h1, h3]
    rfl
theorem chancePrompt_dis {vars : List (Str × Cmd)} {being : List Str} {p : Prompt}
    {P : Distr Str} (h : ChancePrompt E vars being p P) :
    ∃ g, sampleGen E ⟨.random, vars, being⟩ p = .ok g ∧ GDis E g P := by
  match h with
  | .text (p := p) hne hp hc =>
    obtain ⟨g, hg, hl⟩ := chance_dis hc
    refine ⟨if E.ignoreWs then .squash g else g, ?_, ?_⟩
    · cases p with
      | nil => exact absurd rfl hne
      | cons a s => simp [sampleGen, hp, hg]
    · split
      · exact gdis_squash hl
      · rw [Distr.map_id]; exact hl
  | .cmd ht hc =>
    obtain ⟨g, hg, hl⟩ := chance_dis hc
    refine ⟨if E.ignoreWs then .squash g else g, ?_, ?_⟩
    · simp [sampleGen, ht, hg]
    · split
      · exact gdis_squash hl
      · rw [Distr.map_id]; exact hl
theorem chanceAssign_dis {vars : List (Str × Cmd)} {being : List Str}
    {toks toks' : List Cmd} {N : Distr (List (Str × Cmd))} (h : ChanceAssign E vars being toks toks' N) :
    Dis1 E.rng ((lim E).assigns E ⟨.random, vars, being⟩ toks) (fun a new => a = (toks', new)) N := by
  match h with
  | .nil => exact Dis.pure fun _ => rfl
  | .tok (c := c) (toks := toks) hc h =>
    have ih := chanceAssign_dis h
    have key := Dis1.map (h := fun p : List Cmd × List (Str × Cmd) => (c :: p.1, p.2)) (k := fun new => new)
      (R' := fun a new => a = (c :: toks, new)) ih (by rintro a b _ rfl; rfl)
    rw [Distr.map_id] at key
    cases c with
    | assign n v i o => exact absurd rfl (hc n v i o)
    | _ => exact key
  | .keep (n := n) (c := c) hl h =>
    have ih := chanceAssign_dis h
    refine Dis1.after (a := c) ?_ (Dis1.map ih (by rintro a b _ rfl; rfl))
    unfold Recs.assign
    simp only [Bool.false_eq_true, if_false, hl]
    exact fun _ => rfl
  | .plain (n := n) (v := v) ho h =>
    have ih := chanceAssign_dis h
    refine Dis1.after (a := v) ?_ (Dis1.map ih (by rintro a b _ rfl; rfl))
    unfold Recs.assign
    rw [assign_fresh (ctx := ⟨.random, vars, being⟩) ho]
    exact fun _ => rfl
  | .literal (n := n) (s := s) (m := m) ho h =>
    have ih := chanceAssign_dis h
    refine Dis1.after (a := .lit s m) ?_ (Dis1.map ih (by rintro a b _ rfl; rfl))
    unfold Recs.assign
    rw [assign_fresh (ctx := ⟨.random, vars, being⟩) ho]
    exact fun _ => rfl
  | .immediate (n := n) ho hv hc h =>
    have ih := chanceAssign_dis h
    exact Dis1.bindEq (g := fun s => .lit s none)
      (dis_assign (ctx := ⟨.random, vars, being⟩) ho hv (chance_dis hc))
      fun s _ => Dis1.map ih (by rintro a b _ rfl; rfl)
end

end Verif
