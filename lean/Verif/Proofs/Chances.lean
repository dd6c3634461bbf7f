import Verif.Spec.Chances
import Verif.Proofs.Reachable
import Mathlib.Algebra.BigOperators.Group.List.Basic
import Mathlib.Tactic.FieldSimp
import Mathlib.Tactic.Ring
/-! Events of the random source and the results they stand for. -/

namespace Verif
open Spec Props
variable {W : Type} {α β γ δ ι κ : Type} {r : Rng W}

theorem Event.after_append (e e' : Event) (w : W) :
    Event.after r (e ++ e') w = (Event.after r e w).bind (Event.after r e') := by
  induction e generalizing w with
  | nil => rfl
  | cons c e ih =>
    cases c with
    | below n k =>
      simp only [List.cons_append, Event.after]
      split
      · exact ih _
      · rfl
    | unit a b =>
      simp only [List.cons_append, Event.after]
      split
      · exact ih _
      · rfl

theorem Event.chance_append (e e' : Event) : Event.chance (e ++ e') = Event.chance e * Event.chance e' := by
  simp [Event.chance]

theorem Event.chance_nil : Event.chance [] = 1 := rfl

theorem Event.chance_single (c : Condition) : Event.chance [c] = c.chance := by simp [Event.chance]

/-- The distribution of the labels. -/
def distOf (L : List (Event × β)) : Distr β := L.map fun y => (y.2, Event.chance y.1)

/-- The outcomes of a distribution. -/
def outcomes (P : Distr β) : List β := List.map Prod.fst P

/-- Exactly one of the events happens, and then `x` gives the result labelled, having made exactly these
draws. -/
structure Has (r : Rng W) (x : M W α) (R : α → β → Prop) (L : List (Event × β)) : Prop where
  one : ∀ w, L.countP (fun y => Event.happens r y.1 w) = 1
  run : ∀ y ∈ L, ∀ w w', Event.after r y.1 w = some w' → ∃ a, x w = .ok a w' ∧ R a y.2

/-- `Has` for each of several programs, with the same events. -/
def Dis (r : Rng W) (x : ι → M W α) (R : α → β → Prop) (P : Distr β) : Prop :=
  ∃ L : List (Event × β), (∀ y ∈ L, ∀ c ∈ y.1, c.Proper) ∧ (distOf L = P ∧ total P = 1) ∧
    ∀ i, Has r (x i) R L

/-- The results of one program. -/
abbrev Dis1 (r : Rng W) (x : M W α) (R : α → β → Prop) (P : Distr β) : Prop := Dis r (fun _ : Unit => x) R P

theorem Dis.reindex {x : ι → M W α} {R : α → β → Prop} {P : Distr β} (h : Dis r x R P) (g : κ → ι) :
    Dis r (fun k => x (g k)) R P := by
  obtain ⟨L, h1, h2, h3⟩ := h
  exact ⟨L, h1, h2, fun k => h3 (g k)⟩

theorem Dis1.const {x : M W α} {R : α → β → Prop} {P : Distr β} (h : Dis1 r x R P) :
    Dis r (fun _ : κ => x) R P := Dis.reindex (ι := Unit) h fun _ => ()

theorem Dis.weaken {x : ι → M W α} {R R' : α → β → Prop} {P : Distr β} (h : Dis r x R P)
    (hR : ∀ a b, b ∈ outcomes P → R a b → R' a b) : Dis r x R' P := by
  obtain ⟨L, h1, h2, h3⟩ := h
  refine ⟨L, h1, h2, fun i => ⟨(h3 i).one, fun y hy w w' hw => ?_⟩⟩
  obtain ⟨a, ha, hab⟩ := (h3 i).run y hy w w' hw
  refine ⟨a, ha, hR a _ ?_ hab⟩
  rw [← h2.1, distOf, outcomes, List.map_map]
  exact List.mem_map.2 ⟨y, hy, rfl⟩

theorem Dis.pure {R : α → β → Prop} {a : ι → α} {b : β} (h : ∀ i, R (a i) b) :
    Dis r (fun i => (Pure.pure (a i) : M W α)) R (Distr.sure b) := by
  refine ⟨[([], b)], by simp, ⟨rfl, by simp [total, Distr.sure]⟩, fun i => ⟨fun w => rfl, ?_⟩⟩
  intro y hy w w' hw
  simp only [List.mem_singleton] at hy
  subst hy
  cases hw
  exact ⟨a i, rfl, h i⟩

theorem Dis1.det {x : M W α} {R : α → β → Prop} {a : α} {b : β} (hx : ∀ w, x w = .ok a w) (h : R a b) :
    Dis1 r x R (Distr.sure b) := by
  have : x = Pure.pure a := funext hx
  rw [this]
  exact Dis.pure fun _ => h

theorem countP_flatMap {f : α → List β} {p : β → Bool} {q : α → Bool} {l : List α}
    (h : ∀ a ∈ l, (f a).countP p = if q a then 1 else 0) : (l.flatMap f).countP p = l.countP q := by
  induction l with
  | nil => rfl
  | cons a l ih =>
    rw [List.flatMap_cons, List.countP_append, List.countP_cons, ih fun a ha => h a (by simp [ha]),
      h a (by simp)]
    omega

theorem sum_mul_left' (l : List α) (f : α → Rat) (c : Rat) :
    (l.map fun x => c * f x).sum = c * (l.map f).sum := by
  induction l with
  | nil => simp
  | cons a l ih => simp only [List.map_cons, List.sum_cons, ih]; ring

theorem total_bind {P : Distr α} {Q : α → Distr β} (hP : total P = 1)
    (hQ : ∀ a ∈ outcomes P, total (Q a) = 1) : total (P.bind Q) = 1 := by
  rw [← hP]
  clear hP
  unfold Distr.bind total
  induction P with
  | nil => rfl
  | cons x P ih =>
    rw [List.flatMap_cons, List.map_append, List.sum_append, ih fun a ha => hQ a (by
      simp only [outcomes, List.map_cons, List.mem_cons]; exact .inr ha), List.map_cons, List.sum_cons]
    congr 1
    have h := hQ x.1 (by simp [outcomes])
    unfold total at h
    rw [List.map_map]
    rw [show ((fun y : β × Rat => y.2) ∘ fun y : β × Rat => (y.1, x.2 * y.2)) = fun y => x.2 * y.2 from rfl,
      sum_mul_left', h, mul_one]

theorem Dis.bind {x : ι → M W α} {R : α → β → Prop} {P : Distr β} {f : ι → α → M W γ}
    {R' : γ → δ → Prop} {Q : β → Distr δ} (h : Dis r x R P)
    (h' : ∀ b, b ∈ outcomes P → Dis r (fun p : {p : ι × α // R p.2 b} => f p.1.1 p.1.2) R' (Q b)) :
    Dis r (fun i => x i >>= f i) R' (P.bind Q) := by
  classical
  obtain ⟨L, h1, h2, h3⟩ := h
  have hmem : ∀ y ∈ L, y.2 ∈ outcomes P := by
    intro y hy
    rw [← h2.1, distOf, outcomes, List.map_map]
    exact List.mem_map.2 ⟨y, hy, rfl⟩
  have : ∀ b, ∃ L' : List (Event × δ), b ∈ outcomes P →
      (∀ y ∈ L', ∀ c ∈ y.1, c.Proper) ∧ (distOf L' = Q b ∧ total (Q b) = 1) ∧
        ∀ p : {p : ι × α // R p.2 b}, Has r (f p.1.1 p.1.2) R' L' := by
    intro b
    by_cases hb : b ∈ outcomes P
    · obtain ⟨L', h⟩ := h' b hb
      exact ⟨L', fun _ => h⟩
    · exact ⟨[], fun h => absurd h hb⟩
  choose L' hL' using this
  refine ⟨L.flatMap fun y => (L' y.2).map fun z => (y.1 ++ z.1, z.2), ?_, ⟨?_, ?_⟩, fun i => ⟨fun w => ?_, ?_⟩⟩
  · intro y hy c hc
    obtain ⟨a, ha, hy⟩ := List.mem_flatMap.1 hy
    obtain ⟨z, hz, rfl⟩ := List.mem_map.1 hy
    rcases List.mem_append.1 hc with hc | hc
    · exact h1 a ha c hc
    · exact (hL' _ (hmem a ha)).1 z hz c hc
  · rw [← h2.1]
    simp only [distOf, Distr.bind, List.map_flatMap, List.flatMap_map]
    apply List.flatMap_congr
    intro y hy
    rw [← (hL' _ (hmem y hy)).2.1.1, distOf, List.map_map, List.map_map]
    apply List.map_congr_left
    intro z _
    simp [Event.chance_append]
  · exact total_bind h2.2 fun b hb => (hL' b hb).2.1.2
  · rw [countP_flatMap (q := fun y => Event.happens r y.1 w)]
    · exact (h3 i).one w
    · intro y hy
      rw [List.countP_map]
      cases ha : Event.after r y.1 w with
      | none =>
        have : Event.happens r y.1 w = false := by simp [Event.happens, ha]
        simp [Function.comp_def, Event.happens, Event.after_append, ha]
      | some w' =>
        obtain ⟨a, -, hR⟩ := (h3 i).run y hy w w' ha
        have := ((hL' _ (hmem y hy)).2.2 ⟨(i, a), hR⟩).one w'
        simpa [Function.comp_def, Event.happens, Event.after_append, ha] using this
  · intro y hy w w' hw
    obtain ⟨a, ha, hy⟩ := List.mem_flatMap.1 hy
    obtain ⟨z, hz, rfl⟩ := List.mem_map.1 hy
    rw [Event.after_append] at hw
    cases hw1 : Event.after r a.1 w with
    | none => rw [hw1] at hw; cases hw
    | some w1 =>
      rw [hw1] at hw
      obtain ⟨v, hv, hR⟩ := (h3 i).run a ha w w1 hw1
      obtain ⟨u, hu, hR'⟩ := ((hL' _ (hmem a ha)).2.2 ⟨(i, v), hR⟩).run z hz w1 w' hw
      exact ⟨u, by show (x i >>= f i) w = _; rw [M.bind_of_ok hv]; exact hu, hR'⟩

theorem Distr.bind_sure (P : Distr α) (f : α → β) : P.bind (fun a => Distr.sure (f a)) = P.map f := by
  simp [Distr.bind, Distr.sure, Distr.map, List.flatMap_def]
  induction P with
  | nil => rfl
  | cons x P ih => simp [ih]

theorem Distr.sure_bind (a : α) (f : α → Distr β) : (Distr.sure a).bind f = f a := by
  simp [Distr.bind, Distr.sure]

theorem Dis.map {x : ι → M W α} {R : α → β → Prop} {P : Distr β} {R' : γ → δ → Prop} {h : ι → α → γ}
    {k : β → δ} (hx : Dis r x R P) (hR : ∀ i a b, b ∈ outcomes P → R a b → R' (h i a) (k b)) :
    Dis r (fun i => x i >>= fun a => Pure.pure (h i a)) R' (P.map k) := by
  rw [← Distr.bind_sure]
  exact hx.bind fun b hb => Dis.pure fun p => hR _ _ _ hb p.2

/-- The next program depends on the label only. -/
theorem Dis1.bind {x : M W α} {R : α → β → Prop} {P : Distr β} {f : α → M W γ}
    {R' : γ → δ → Prop} {Q : β → Distr δ} (h : Dis1 r x R P)
    (h' : ∀ b, b ∈ outcomes P → Dis r (fun p : {a : α // R a b} => f p.1) R' (Q b)) :
    Dis1 r (x >>= f) R' (P.bind Q) :=
  Dis.bind (f := fun _ a => f a) h fun b hb =>
    (h' b hb).reindex fun p : {p : Unit × α // R p.2 b} => (⟨p.1.2, p.2⟩ : {a : α // R a b})

theorem Dis1.bindEq {x : M W α} {P : Distr β} {g : β → α} {f : α → M W γ}
    {R' : γ → δ → Prop} {Q : β → Distr δ} (h : Dis1 r x (fun a b => a = g b) P)
    (h' : ∀ b, b ∈ outcomes P → Dis1 r (f (g b)) R' (Q b)) : Dis1 r (x >>= f) R' (P.bind Q) :=
  h.bind fun b hb => by
    obtain ⟨L, h1, h2, h3⟩ := h' b hb
    exact ⟨L, h1, h2, fun p => by
      obtain ⟨_, rfl⟩ := p
      exact h3 ()⟩

theorem Dis1.map {x : M W α} {R : α → β → Prop} {P : Distr β} {R' : γ → δ → Prop} {h : α → γ}
    {k : β → δ} (hx : Dis1 r x R P) (hR : ∀ a b, b ∈ outcomes P → R a b → R' (h a) (k b)) :
    Dis1 r (x >>= fun a => Pure.pure (h a)) R' (P.map k) :=
  Dis.map (h := fun _ => h) hx fun _ => hR

/-- A step without draws before. -/
theorem Dis1.after {x : M W α} {a : α} {f : α → M W γ} {R' : γ → δ → Prop} {Q : Distr δ}
    (hx : ∀ w, x w = .ok a w) (h : Dis1 r (f a) R' Q) : Dis1 r (x >>= f) R' Q := by
  have : (x >>= f) = f a := by
    funext w
    rw [M.bind_of_ok (hx w)]
  rw [this]
  exact h

theorem Dis1.lift {x : Except Err α} {a : α} {f : α → M W γ} {R' : γ → δ → Prop} {Q : Distr δ}
    (hx : x = .ok a) (h : Dis1 r (f a) R' Q) : Dis1 r (M.lift x >>= f) R' Q := by
  subst hx
  exact .after (fun _ => rfl) h

/-! ### Draws -/

theorem countP_mapIdx {f : Nat → α → β} {p : β → Bool} {l : List α} {k : Nat} (hk : k < l.length)
    (h : ∀ i a, i < l.length → p (f i a) = decide (i = k)) : (l.mapIdx f).countP p = 1 := by
  induction l generalizing f k with
  | nil => simp at hk
  | cons a l ih =>
    rw [List.mapIdx_cons, List.countP_cons, h 0 a (by simp)]
    cases k with
    | zero =>
      have : (l.mapIdx fun i => f (i + 1)).countP p = 0 := by
        rw [List.countP_eq_zero]
        intro b hb
        obtain ⟨i, hi, rfl⟩ := List.mem_mapIdx.1 hb
        rw [h (i + 1) _ (by simpa using hi)]
        simp
      rw [this]; rfl
    | succ k =>
      rw [ih (k := k) (by simpa using hk) (fun i a hi => by rw [h (i + 1) a (by simpa using hi)]; simp)]
      simp

/-- One draw, among as many conditions as labels. -/
theorem Dis1.draw {x : M W α} {R : α → β → Prop} {l : List β} {c : Nat → Condition} {P : Distr β}
    {idx : W → Nat} {nxt : W → W} (hc : ∀ i, i < l.length → (c i).Proper)
    (hP : l.mapIdx (fun i b => (b, (c i).chance)) = P)
    (hT : total P = 1) (hidx : ∀ w, idx w < l.length)
    (haft : ∀ i, i < l.length → ∀ w, Event.after r [c i] w = if idx w = i then some (nxt w) else none)
    (hx : ∀ w b, l[idx w]? = some b → ∃ a, x w = .ok a (nxt w) ∧ R a b) : Dis1 r x R P := by
  refine ⟨l.mapIdx fun i b => ([c i], b), ?_, ⟨?_, hT⟩, fun _ => ⟨fun w => ?_, ?_⟩⟩
  · intro y hy
    obtain ⟨i, hi, rfl⟩ := List.mem_mapIdx.1 hy
    intro d hd
    simp only [List.mem_singleton] at hd
    subst hd
    exact hc i hi
  · rw [← hP, distOf]
    apply List.ext_getElem?
    intro i
    simp [Event.chance_single, Option.map_map, Function.comp_def]
  · refine countP_mapIdx (hidx w) fun i a hi => ?_
    simp only [Event.happens, haft i hi]
    split
    · rename_i h; simp [h]
    · rename_i h; simp [Ne.symm h]
  · intro y hy w w' hw
    obtain ⟨i, hi, rfl⟩ := List.mem_mapIdx.1 hy
    simp only [haft i hi] at hw
    split at hw
    · rename_i h
      cases hw
      exact hx w _ (by rw [h]; exact List.getElem?_eq_getElem hi)
    · cases hw

/-- A draw of an integer. -/
theorem Dis1.below {x : M W α} {R : α → β → Prop} {l : List β} {n : Nat} (hl : l.length = n + 1)
    (hx : ∀ w b, l[(r.below n w).1.val]? = some b → ∃ a, x w = .ok a (r.below n w).2 ∧ R a b) :
    Dis1 r x R (l.map fun b => (b, 1 / ((n + 1 : Nat) : Rat))) := by
  refine Dis1.draw (l := l) (c := fun i => .below n i) (idx := fun w => (r.below n w).1.val)
    (nxt := fun w => (r.below n w).2) ?_ ?_ ?_ ?_ ?_ hx
  · intro i hi; simp only [Condition.Proper]; omega
  · apply List.ext_getElem?
    intro i
    simp [Condition.chance]
  · have hne : ((n : Rat) + 1) ≠ 0 := by positivity
    simp [total, Function.comp_def, hl, hne]
  · intro w; rw [hl]; exact (r.below n w).1.2
  · intro i _ w; rfl

/-- A draw in proportion to weights. -/
theorem Dis1.weighted {x : M W α} {R : α → β → Prop} {l : List (β × Rat)} (hw : ∀ p ∈ l, 0 ≤ p.2)
    (hpos : 0 < total l)
    (hx : ∀ w p, l[weightedIndex .exact (accumulate .exact (l.map (·.2))) (r.unit w).1.val]? = some p →
      ∃ a, x w = .ok a (r.unit w).2 ∧ R a p.1) :
    Dis1 r x R (oneOf l) := by
  have hw' : ∀ y ∈ l.map (·.2), 0 ≤ y := by
    intro y hy
    obtain ⟨p, hp, rfl⟩ := List.mem_map.1 hy
    exact hw p hp
  have hT : (l.map (·.2)).sum = total l := rfl
  have hsucc : ∀ i (hi : i < l.length), ((l.map (·.2)).take (i + 1)).sum =
      ((l.map (·.2)).take i).sum + l[i].2 := by
    intro i hi
    rw [← List.take_concat_get' _ i (by simpa using hi), List.sum_append]
    simp
  have hle := fun i => sum_take_le hw' i
  rw [hT] at hle
  refine Dis1.draw (l := l.map (·.1))
    (c := fun i => .unit (((l.map (·.2)).take i).sum / total l) (((l.map (·.2)).take (i + 1)).sum / total l))
    (idx := fun w => weightedIndex .exact (accumulate .exact (l.map (·.2))) (r.unit w).1.val)
    (nxt := fun w => (r.unit w).2) ?_ ?_ ?_ ?_ ?_ ?_
  · intro i hi
    have hi' : i < l.length := by simpa using hi
    have h0 : 0 ≤ ((l.map (·.2)).take i).sum :=
      List.sum_nonneg (fun y hy => hw' y (List.mem_of_mem_take hy))
    refine ⟨div_nonneg h0 hpos.le, ?_, ?_⟩
    · rw [div_le_div_iff_of_pos_right hpos, hsucc i hi']
      have := hw _ (List.getElem_mem hi')
      linarith
    · rw [div_le_one hpos]; exact hle (i + 1)
  · apply List.ext_getElem?
    intro i
    by_cases hi : i < l.length
    · simp only [List.getElem?_mapIdx, List.getElem?_map, oneOf, List.getElem?_eq_getElem hi, Option.map_some,
        Condition.chance, hsucc i hi]
      congr 2
      ring
    · simp [oneOf, List.getElem?_eq_none (Nat.le_of_not_lt hi)]
  · have : total (oneOf l) = total l / total l := by
      conv_rhs => rw [show total l = (l.map (·.2)).sum from rfl]
      simp only [oneOf, total, List.map_map, Function.comp_def, div_eq_mul_inv]
      simp only [mul_comm _ ((l.map fun x => x.2).sum)⁻¹]
      rw [sum_mul_left']
    rw [this, div_self hpos.ne']
  · intro w
    obtain ⟨h, -⟩ := draw_positive .exact _ hw' hpos (r.unit w).1.val (r.unit w).1.2.1 (r.unit w).1.2.2
    simpa using h
  · intro i hi w
    have hi' : i < l.length := by simpa using hi
    have key := draw_iff _ hw' hpos (r.unit w).1.val (r.unit w).1.2.1 (r.unit w).1.2.2 i (by simpa using hi)
    have : (((l.map (·.2)).take i).sum / total l ≤ (r.unit w).1.val ∧
        (r.unit w).1.val < ((l.map (·.2)).take (i + 1)).sum / total l) ↔
        weightedIndex .exact (accumulate .exact (l.map (·.2))) (r.unit w).1.val = i := by
      rw [key, div_le_iff₀ hpos, lt_div_iff₀ hpos, hsucc i hi', hT]
      simp
    simp only [Event.after, this]
  · intro w b hb
    rw [List.getElem?_map] at hb
    obtain ⟨p, hp, rfl⟩ := Option.map_eq_some_iff.1 hb
    exact hx w p hp

/-- A draw whose outcome does not matter. -/
theorem Dis1.free {x : M W α} {R : α → β → Prop} {b : β}
    (hx : ∀ w, ∃ a, x w = .ok a (r.unit w).2 ∧ R a b) : Dis1 r x R (Distr.sure b) := by
  refine ⟨[([.unit 0 1], b)], ?_, ⟨?_, by simp [total, Distr.sure]⟩, fun _ => ⟨fun w => ?_, ?_⟩⟩
  · intro y hy c hc
    simp only [List.mem_singleton] at hy
    subst hy
    simp only [List.mem_singleton] at hc
    subst hc
    simp only [Condition.Proper]
    norm_num
  · simp [distOf, Event.chance_single, Condition.chance, Distr.sure]
  · simp [Event.happens, Event.after, (r.unit w).1.2.1, (r.unit w).1.2.2]
  · intro y hy w w' hw
    simp only [List.mem_singleton] at hy
    subst hy
    simp only [Event.after, (r.unit w).1.2.1, (r.unit w).1.2.2, and_self, if_true, Option.some.injEq] at hw
    subst hw
    exact hx w

/-! ### Choices -/

theorem total_cons (p : α × Rat) (l : List (α × Rat)) : total (p :: l) = p.2 + total l := by
  simp [total]

theorem total_nonneg {l : List (α × Rat)} (hw : ∀ p ∈ l, 0 ≤ p.2) : 0 ≤ total l := by
  refine List.sum_nonneg fun y hy => ?_
  obtain ⟨p, hp, rfl⟩ := List.mem_map.1 hy
  exact hw p hp

theorem total_pos {l : List (α × Rat)} (hw : ∀ p ∈ l, 0 ≤ p.2) (h : ∃ p ∈ l, 0 < p.2) : 0 < total l := by
  induction l with
  | nil => simp at h
  | cons a l ih =>
    rw [total_cons]
    have h1 := hw a (by simp)
    have h2 : 0 ≤ total l := total_nonneg fun p hp => hw p (by simp [hp])
    obtain ⟨p, hp, hp0⟩ := h
    rcases List.mem_cons.1 hp with rfl | hp
    · linarith
    · linarith [ih (fun p hp => hw p (by simp [hp])) ⟨p, hp, hp0⟩]

theorem splits_eq (l : List α) :
    splits l = l.mapIdx fun i a => (a, l.eraseIdx i) := by
  induction l with
  | nil => rfl
  | cons a l ih =>
    simp only [splits, List.mapIdx_cons, ih, List.eraseIdx_zero, List.tail_cons, List.eraseIdx_cons_succ]
    congr 1
    apply List.ext_getElem?
    intro i
    simp [Option.map_map, Function.comp_def]

theorem mem_splits {l : List α} {x : α × List α} (h : x ∈ splits l) :
    ∃ i, ∃ hi : i < l.length, x = (l[i], l.eraseIdx i) := by
  rw [splits_eq] at h
  obtain ⟨i, hi, rfl⟩ := List.mem_mapIdx.1 h
  exact ⟨i, hi, rfl⟩

theorem splits_map_fst (l : List α) : (splits l).map (·.1) = l := by
  rw [splits_eq]
  apply List.ext_getElem?
  intro i
  simp [Option.map_map, Function.comp_def]

variable [hA : Fact (r.arith = .exact)]

/-- The first part of `random.choices`: one draw. -/
theorem choices_succ {pop : List α} {ws : List Rat} (hl : ws.length = pop.length)
    (hw : ∀ x ∈ ws, 0 ≤ x) (hpos : 0 < ws.sum) (k : Nat) :
    r.choicesCum pop (accumulate .exact ws) (k + 1) = (do
      let v ← (fun w => match pop[weightedIndex .exact (accumulate .exact ws) (r.unit w).1.val]? with
        | none => .err .index (r.unit w).2
        | some v => .ok v (r.unit w).2 : M W α)
      let vs ← r.choicesCum pop (accumulate .exact ws) k
      return v :: vs) := by
  have hne : ws ≠ [] := by rintro rfl; simp at hpos
  have c1 : ¬ (accumulate .exact ws).length ≠ pop.length := by rw [accumulate_length]; simpa using hl
  have c2 : ¬ (accumulate .exact ws).isEmpty = true := by
    rw [List.isEmpty_iff, ← List.length_eq_zero_iff, accumulate_length, List.length_eq_zero_iff]
    exact hne
  have c3 : ¬ (accumulate .exact ws).getLastD 0 ≤ 0 := by rw [accumulate_getLastD]; linarith
  funext w
  simp only [Rng.choicesCum, hA.out]
  rw [if_neg c1, if_neg c2, if_neg c3]
  cases hp : pop[weightedIndex .exact (accumulate .exact ws) (r.unit w).1.val]? with
  | none =>
    refine (M.bind_of_err (e := .index) (w' := (r.unit w).2) ?_).symm
    simp only [hp]
  | some v =>
    symm
    dsimp only
    refine M.bind_of_ok (a := v) (w' := (r.unit w).2) ?_
    simp only [hp]

theorem choices_zero {pop : List α} {ws : List Rat} (hl : ws.length = pop.length)
    (hpos : 0 < ws.sum) (w : W) : r.choicesCum pop (accumulate .exact ws) 0 w = .ok [] w := by
  have hne : ws ≠ [] := by rintro rfl; simp at hpos
  have c1 : ¬ (accumulate .exact ws).length ≠ pop.length := by rw [accumulate_length]; simpa using hl
  have c2 : ¬ (accumulate .exact ws).isEmpty = true := by
    rw [List.isEmpty_iff, ← List.length_eq_zero_iff, accumulate_length, List.length_eq_zero_iff]
    exact hne
  have c3 : ¬ (accumulate .exact ws).getLastD 0 ≤ 0 := by rw [accumulate_getLastD]; linarith
  simp only [Rng.choicesCum]
  rw [if_neg c1, if_neg c2, if_neg c3]

theorem dis_choices_free {pop : List α} {ws : List Rat} (hl : ws.length = pop.length)
    (hw : ∀ x ∈ ws, 0 ≤ x) (hpos : 0 < ws.sum) (k : Nat) :
    Dis1 r (r.choicesCum pop (accumulate .exact ws) k) (fun _ (_ : Unit) => True) (Distr.sure ()) := by
  induction k with
  | zero => exact .det (choices_zero hl hpos) trivial
  | succ k ih =>
    rw [choices_succ hl hw hpos, ← Distr.sure_bind () fun _ : Unit => Distr.sure ()]
    refine Dis1.bind (R := fun _ _ => True) (.free fun w => ?_) fun b _ => ?_
    · obtain ⟨h, -⟩ := draw_positive .exact _ hw hpos (r.unit w).1.val (r.unit w).1.2.1 (r.unit w).1.2.2
      rw [hl] at h
      refine ⟨pop[weightedIndex .exact (accumulate .exact ws) (r.unit w).1.val], ?_, trivial⟩
      rw [List.getElem?_eq_getElem h]
    · rw [← Distr.sure_bind () fun _ : Unit => Distr.sure ()]
      exact Dis.bind (x := fun _ => r.choicesCum pop (accumulate .exact ws) k) ih.const
        fun b _ => Dis.pure fun _ => trivial

/-- `random.choices` with at least one draw: the first draw matters, the others are ignored. -/
theorem dis_choices {l : List (β × Rat)} {pop : List α} {f : β → α} (hpop : pop = l.map fun p => f p.1)
    (hw : ∀ p ∈ l, 0 ≤ p.2) (hpos : 0 < total l) (k : Nat) :
    Dis1 r (r.choicesCum pop (accumulate .exact (l.map (·.2))) (k + 1))
      (fun vs b => ∃ vs', vs = f b :: vs' ∧ vs'.length = k) (oneOf l) := by
  have hl : (l.map (·.2)).length = pop.length := by rw [hpop]; simp
  have hw' : ∀ y ∈ l.map (·.2), 0 ≤ y := by
    intro y hy
    obtain ⟨p, hp, rfl⟩ := List.mem_map.1 hy
    exact hw p hp
  rw [choices_succ hl hw' hpos]
  have h0 : oneOf l = (oneOf l).bind fun b => Distr.sure b := by
    rw [Distr.bind_sure]; simp [Distr.map]
  rw [h0]
  refine Dis1.bind (R := fun a b => a = f b) (Dis1.weighted hw hpos fun w p hp => ?_) fun b _ => ?_
  · refine ⟨f p.1, ?_, rfl⟩
    rw [hpop, List.getElem?_map, hp]
    rfl
  · rw [← Distr.sure_bind () fun _ : Unit => Distr.sure b]
    have hlen : Dis1 r (r.choicesCum pop (accumulate .exact (l.map (·.2))) k)
        (fun vs (_ : Unit) => vs.length = k) (Distr.sure ()) := by
      obtain ⟨L, h1, h2, h3⟩ := dis_choices_free (r := r) hl hw' hpos k
      refine ⟨L, h1, h2, fun i => ⟨(h3 i).one, fun y hy w w' hw0 => ?_⟩⟩
      obtain ⟨a, ha, -⟩ := (h3 i).run y hy w w' hw0
      obtain ⟨vs, w2, hvs, hk, -⟩ := choices_positive r pop _ hl hw' hpos k w
      rw [hA.out] at hvs
      refine ⟨a, ha, ?_⟩
      dsimp only at ha
      rw [hvs] at ha
      cases ha
      exact hk
    refine Dis.bind (x := fun _ => r.choicesCum pop (accumulate .exact (l.map (·.2))) k)
      (f := fun (p : {a : α // a = f b}) vs => (Pure.pure (p.1 :: vs) : M W (List α))) hlen.const
      fun _ _ => Dis.pure ?_
    rintro ⟨⟨⟨a, rfl⟩, vs⟩, hvs⟩
    exact ⟨vs, rfl, hvs⟩

theorem erase_together {l : List Rat} (h : Together l) {i : Nat} (hi : i < l.length) :
    l.erase l[i] = l.eraseIdx i := by
  induction l generalizing i with
  | nil => simp at hi
  | cons a l ih =>
    cases i with
    | zero => simp
    | succ i =>
      have hi' : i < l.length := by simpa using hi
      have ht : Together l := fun x y z hs => h x y z (hs.trans (List.sublist_cons_self _ _))
      simp only [List.getElem_cons_succ, List.eraseIdx_cons_succ]
      by_cases ha : a = l[i]
      · rw [← ha, List.erase_cons_head]
        -- every element up to `i` is `a`
        have key : ∀ (m : List Rat) (j : Nat) (hj : j < m.length), (∀ x ∈ m.take (j + 1), x = a) →
            m = a :: m.eraseIdx j := by
          intro m
          induction m with
          | nil => intro j hj; simp at hj
          | cons b m ih =>
            intro j hj hm
            have hb : b = a := hm b (by simp)
            subst hb
            cases j with
            | zero => simp
            | succ j =>
              have := ih j (by simpa using hj) fun x hx => hm x (by simp [hx])
              simp only [List.eraseIdx_cons_succ]
              rw [← this]
        refine key l i hi' fun x hx => ?_
        obtain ⟨j, hj, rfl⟩ := List.mem_iff_getElem.1 hx
        rw [List.length_take] at hj
        rw [List.getElem_take]
        by_cases hji : j = i
        · subst hji; exact ha.symm
        · refine h a l[j] l[i] ?_ ha
          refine .cons_cons _ ?_
          have h1 : l = l.take (j + 1) ++ l.drop (j + 1) := (List.take_append_drop _ _).symm
          rw [show [l[j], l[i]] = [l[j]] ++ [l[i]] from rfl]
          conv_rhs => rw [h1]
          refine List.Sublist.append ?_ ?_
          · rw [List.singleton_sublist]
            exact List.mem_take_iff_getElem.2 ⟨j, by omega, rfl⟩
          · rw [List.singleton_sublist, List.mem_drop_iff_getElem]
            exact ⟨i - (j + 1), by omega, by congr 1; omega⟩
      · rw [List.erase_cons_tail (by simpa using ha), ih ht hi']

theorem Together.sublist {l l' : List Rat} (h : Together l) (hs : l'.Sublist l) : Together l' :=
  fun a b c h3 => h a b c (h3.trans hs)

theorem pickings_succ (k : Nat) (l : List (α × Rat)) :
    pickings (k + 1) l = Distr.bind ((splits l).map fun x => (x, x.1.2 / total l))
      fun x => (pickings k x.2).map (x.1.1 :: ·) := by
  simp only [pickings, Distr.bind, Distr.map, List.flatMap_map, List.map_map]
  rfl

/-- Picking options without replacement. -/
theorem dis_chooseLoop [DecidableEq α] {f : β → α} (k : Nat) {l : List (β × Rat)}
    (hnn : ∀ p ∈ l, 0 ≤ p.2) (hpos : 0 < k → 0 < total l)
    (h2 : 2 ≤ k → k ≤ l.length ∧ (∀ p ∈ l, 0 < p.2) ∧ (l.map fun p => f p.1).Nodup ∧ Together (l.map (·.2))) :
    Dis1 r (chooseLoop r k (l.map fun p => f p.1) (l.map (·.2)))
      (fun cs bs => cs = bs.map f ∧ bs.Subperm (l.map (·.1))) (pickings k l) := by
  induction k generalizing l with
  | zero => exact Dis.pure fun _ => ⟨rfl, List.nil_subperm⟩
  | succ k ih =>
    rw [pickings_succ]
    unfold chooseLoop
    rw [hA.out]
    have hdraw : Dis1 r (r.choicesCum (l.map fun p => f p.1) (accumulate .exact (l.map (·.2))) 1)
        (fun cs x => x ∈ splits l ∧ cs = [f x.1.1]) ((splits l).map fun x => (x, x.1.2 / total l)) := by
      have hs : (splits l).map (fun x => x.1) = l := splits_map_fst l
      have ht : total ((splits l).map fun x => (x, x.1.2)) = total l := by
        conv_rhs => rw [← hs]
        simp [total, Function.comp_def]
      have hd := dis_choices (r := r) (l := (splits l).map fun x => (x, x.1.2)) (pop := l.map fun p => f p.1)
        (f := fun x => f x.1.1) ?_ ?_ ?_ 0
      · have e1 : ((splits l).map fun x => (x, x.1.2)).map (·.2) = l.map (·.2) := by
          conv_rhs => rw [← hs]
          simp [Function.comp_def]
        have e2 : oneOf ((splits l).map fun x => (x, x.1.2)) = (splits l).map fun x => (x, x.1.2 / total l) := by
          simp [oneOf, ht, Function.comp_def]
        rw [e1, e2] at hd
        refine hd.weaken ?_
        rintro a x hx ⟨vs, rfl, hvs⟩
        rw [List.length_eq_zero_iff] at hvs
        subst hvs
        refine ⟨?_, rfl⟩
        simpa [outcomes, Function.comp_def] using hx
      · conv_lhs => rw [← hs]
        simp [Function.comp_def]
      · intro p hp
        obtain ⟨x, hx, rfl⟩ := List.mem_map.1 hp
        refine hnn _ ?_
        rw [← hs]
        exact List.mem_map.2 ⟨x, hx, rfl⟩
      · rw [ht]; exact hpos (by omega)
    refine Dis1.bind hdraw fun x hx => ?_
    have hx' : x ∈ splits l := by simpa [outcomes, Function.comp_def] using hx
    obtain ⟨i, hi, rfl⟩ := mem_splits hx'
    have hrest : Dis1 r (do
        let rest ← chooseLoop r k ((l.map fun p => f p.1).erase (f l[i].1))
          ((l.map (·.2)).erase ((l.map (·.2)).getD ((l.map fun p => f p.1).idxOf (f l[i].1)) 0))
        return f l[i].1 :: rest)
        (fun cs bs => cs = bs.map f ∧ bs.Subperm (l.map (·.1)))
        ((pickings k (l.eraseIdx i)).map (l[i].1 :: ·)) := by
      cases k with
      | zero =>
        refine Dis1.map (R := fun cs bs => cs = bs.map f ∧ bs = []) (Dis.pure fun _ => ⟨rfl, rfl⟩) ?_
        rintro a b hb ⟨rfl, rfl⟩
        refine ⟨rfl, ?_⟩
        rw [List.singleton_subperm_iff]
        exact List.mem_map.2 ⟨_, List.getElem_mem hi, rfl⟩
      | succ k =>
        obtain ⟨hk, hp, hnd, htog⟩ := h2 (by omega)
        have hidx : (l.map fun p => f p.1).idxOf (f l[i].1) = i := by
          have := hnd.idxOf_getElem i (by simpa using hi)
          simpa using this
        have hv : (l.map fun p => f p.1).erase (f l[i].1) = (l.eraseIdx i).map fun p => f p.1 := by
          rw [← List.eraseIdx_map, List.erase_eq_eraseIdx_of_idxOf hidx]
        have hwt : (l.map (·.2)).erase ((l.map (·.2)).getD i 0) = (l.eraseIdx i).map (·.2) := by
          have e : (l.map (·.2)).getD i 0 = (l.map (·.2))[i]'(by simpa using hi) := by
            rw [List.getD_eq_getElem?_getD, List.getElem?_eq_getElem (by simpa using hi)]
            rfl
          rw [e, erase_together htog, List.eraseIdx_map]
        rw [hidx, hv, hwt]
        have hsub := List.eraseIdx_sublist l i
        have hlen : (l.eraseIdx i).length = l.length - 1 := List.length_eraseIdx_of_lt hi
        refine Dis1.map (ih (l := l.eraseIdx i) (fun p hp => hnn p (hsub.subset hp)) (fun _ => ?_) fun _ =>
          ⟨by omega, fun p h => hp p (hsub.subset h), hnd.sublist (hsub.map _), Together.sublist htog (hsub.map _)⟩) ?_
        · refine total_pos (fun p hp => hnn p (hsub.subset hp)) ?_
          match hq : l.eraseIdx i, hlen with
          | [], hlen => simp at hlen; omega
          | q :: qs, _ => exact ⟨q, by simp, hp q (hsub.subset (by rw [hq]; simp))⟩
        · rintro a b hb ⟨rfl, hsp⟩
          refine ⟨rfl, ?_⟩
          have hperm : List.Perm (l[i].1 :: (l.eraseIdx i).map (·.1)) (l.map (·.1)) := by
            have := (List.getElem_cons_eraseIdx_perm hi).map (fun p : β × Rat => p.1)
            simpa using this
          exact ((List.subperm_cons _).2 hsp).trans hperm.subperm
    obtain ⟨L, h1, h2, h3⟩ := hrest
    refine ⟨L, h1, h2, ?_⟩
    rintro ⟨_, -, rfl⟩
    exact h3 ()

end Verif
