import Verif.Spec.Bits
import Verif.Proofs.Fair
/-!
# Proofs about numbers made from bits
-/

namespace Verif
open Spec Filter Topology
variable {W ι : Type}

/-! ### Probabilities -/

section
variable {pr : (W → Prop) → ℝ} (hn : ∀ A, 0 ≤ pr A)
  (ha : ∀ A B, (∀ w, A w → ¬ B w) → pr (fun w => A w ∨ B w) = pr A + pr B)
include hn ha

theorem pr_mono {A B : W → Prop} (h : ∀ w, A w → B w) : pr A ≤ pr B := by
  have e : B = fun w => A w ∨ (B w ∧ ¬ A w) := by
    funext w
    apply propext
    have := h w
    tauto
  have h1 := ha A (fun w => B w ∧ ¬ A w) (fun w h1 h2 => h2.2 h1)
  rw [← e] at h1
  have := hn (fun w => B w ∧ ¬ A w)
  linarith

theorem pr_sum_le [DecidableEq ι] (s : Finset ι) (B : ι → W → Prop) (A : W → Prop)
    (hd : ∀ i ∈ s, ∀ j ∈ s, i ≠ j → ∀ w, B i w → ¬ B j w) (hs : ∀ i ∈ s, ∀ w, B i w → A w) :
    ∑ i ∈ s, pr (B i) ≤ pr A := by
  induction s using Finset.induction_on generalizing A with
  | empty => simpa using hn A
  | insert i s hi ih =>
    rw [Finset.sum_insert hi]
    have h1 := ih (fun w => A w ∧ ¬ B i w) (fun j hj k hk => hd j (Finset.mem_insert_of_mem hj) k (Finset.mem_insert_of_mem hk))
      fun j hj w hw => ⟨hs j (Finset.mem_insert_of_mem hj) w hw, hd j (Finset.mem_insert_of_mem hj) i (Finset.mem_insert_self ..)
        (fun e => hi (e ▸ hj)) w hw⟩
    have h2 := ha (B i) (fun w => A w ∧ ¬ B i w) (fun w h1 h2 => h2.2 h1)
    have h3 : pr (fun w => B i w ∨ (A w ∧ ¬ B i w)) ≤ pr A := pr_mono hn ha fun w hw => by
      rcases hw with hw | hw
      · exact hs i (Finset.mem_insert_self ..) w hw
      · exact hw.1
    linarith
end

/-! ### Lower bounds -/

/-- The calls come out as the event says, and then `Q` holds. -/
def Then (b : Bits W) (u : BitEvent) (Q : W → Prop) (w : W) : Prop := ∃ w', u.after b w = some w' ∧ Q w'

theorem after_append (b : Bits W) (u : BitEvent) (k v : Nat) (w : W) :
    BitEvent.after b (u ++ [(k, v)]) w = (u.after b w).bind fun w' => if (b.bits k w').1.val = v then some (b.bits k w').2 else none := by
  induction u generalizing w with
  | nil => simp [BitEvent.after]
  | cons x u ih =>
    obtain ⟨k', v'⟩ := x
    simp only [List.cons_append, BitEvent.after]
    split
    · exact ih _
    · rfl

theorem then_append {b : Bits W} {u : BitEvent} {k v : Nat} {Q : W → Prop} {w : W} :
    Then b (u ++ [(k, v)]) Q w ↔ Then b u (fun w' => (b.bits k w').1.val = v ∧ Q (b.bits k w').2) w := by
  unfold Then
  rw [after_append]
  constructor
  · rintro ⟨w', h, hq⟩
    cases hu : u.after b w with
    | none => rw [hu] at h; cases h
    | some w'' =>
      rw [hu, Option.bind_some] at h
      split at h
      · cases h; exact ⟨w'', rfl, ‹_›, hq⟩
      · cases h
  · rintro ⟨w', h, hv, hq⟩
    rw [h, Option.bind_some, if_pos hv]
    exact ⟨_, rfl, hq⟩

/-- The chance of an event of bits. -/
noncomputable def BitEvent.size (u : BitEvent) : ℝ := (u.map fun x => (1 / 2 : ℝ) ^ x.1).prod

theorem bitEvent_size_append (u : BitEvent) (k v : Nat) : BitEvent.size (u ++ [(k, v)]) = BitEvent.size u * (1 / 2) ^ k := by
  simp [BitEvent.size]

theorem bitEvent_size_pos (u : BitEvent) : 0 < BitEvent.size u := by
  induction u with
  | nil => simp [BitEvent.size]
  | cons x u ih =>
    simp only [BitEvent.size, List.map_cons, List.prod_cons] at *
    positivity

/-- The pairs of draws that make a number in an interval. -/
def grid (i j : Nat) (a c : Rat) : Finset (Nat × Nat) :=
  (Finset.range (2 ^ i) ×ˢ Finset.range (2 ^ j)).filter fun x =>
    a ≤ ((x.1 * 2 ^ j + x.2 : Nat) : Rat) / 2 ^ (i + j) ∧ ((x.1 * 2 ^ j + x.2 : Nat) : Rat) / 2 ^ (i + j) < c

/-- How likely a condition is with numbers made from bits. -/
noncomputable def Condition.fromBits (i j : Nat) : Condition → ℝ
  | .below n _ => 1 / (n + 1)
  | .unit a c => (grid i j a c).card / 2 ^ (i + j)

/-- A source made from bits, with any number of binary places. -/
noncomputable def Bits.rngWith (b : Bits W) (arith : Arith) (i j : Nat) : Rng W where
  arith := arith
  below := b.below
  unit := b.places i j

theorem Bits.below_accept (b : Bits W) (n : Nat) (w : W) (h : (b.bits (n + 1).size w).1.val < n + 1) :
    b.below n w = (⟨_, h⟩, (b.bits (n + 1).size w).2) := by
  have hex : ∃ j, (b.bits (n + 1).size (b.skip (n + 1).size j w)).1.val < n + 1 := ⟨0, h⟩
  unfold Bits.below
  rw [dif_pos hex]
  have : Nat.find hex = 0 := (Nat.find_eq_zero hex).2 h
  simp only [this, Bits.skip]

theorem Bits.below_reject (b : Bits W) (n : Nat) (w : W) (h : ¬ (b.bits (n + 1).size w).1.val < n + 1)
    (hex : ∃ j, (b.bits (n + 1).size (b.skip (n + 1).size j (b.bits (n + 1).size w).2)).1.val < n + 1) :
    b.below n w = b.below n (b.bits (n + 1).size w).2 := by
  have hex' : ∃ j, (b.bits (n + 1).size (b.skip (n + 1).size j w)).1.val < n + 1 := by
    obtain ⟨j, hj⟩ := hex
    exact ⟨j + 1, hj⟩
  unfold Bits.below
  rw [dif_pos hex, dif_pos hex']
  have : Nat.find hex' = Nat.find hex + 1 := Nat.find_comp_succ hex' hex h
  simp only [this, Bits.skip]

/-- One of the first `J` attempts succeeds with `k`, and then `Q` holds. -/
def Soon (b : Bits W) (n k : Nat) (Q : W → Prop) : Nat → W → Prop
  | 0, _ => False
  | J + 1, w => ((b.bits (n + 1).size w).1.val = k ∧ Q (b.bits (n + 1).size w).2) ∨
      (n + 1 ≤ (b.bits (n + 1).size w).1.val ∧ Soon b n k Q J (b.bits (n + 1).size w).2)

theorem soon_exists {b : Bits W} {n k : Nat} (hk : k ≤ n) {Q : W → Prop} {J : Nat} {w : W} (h : Soon b n k Q J w) :
    ∃ j, (b.bits (n + 1).size (b.skip (n + 1).size j w)).1.val < n + 1 := by
  induction J generalizing w with
  | zero => exact h.elim
  | succ J ih =>
    rcases h with ⟨h, -⟩ | ⟨-, h⟩
    · exact ⟨0, by rw [Bits.skip, h]; omega⟩
    · obtain ⟨j, hj⟩ := ih h
      exact ⟨j + 1, hj⟩

theorem soon_below {b : Bits W} {n k : Nat} (hk : k ≤ n) {Q : W → Prop} {J : Nat} {w : W} (h : Soon b n k Q J w) :
    (b.below n w).1.val = k ∧ Q (b.below n w).2 := by
  induction J generalizing w with
  | zero => exact h.elim
  | succ J ih =>
    rcases h with ⟨h, hq⟩ | ⟨h1, h⟩
    · rw [b.below_accept n w (by rw [h]; omega)]
      exact ⟨h, hq⟩
    · rw [b.below_reject n w (by omega) (soon_exists hk h)]
      exact ih h

theorem rejection_step (M N s g : ℝ) (J : Nat) (hM : 0 < M) (hN : 0 < N) :
    s * g * ((1 - ((M - N) / M) ^ (J + 1)) / N) = s * M⁻¹ * g + (M - N) * (s * M⁻¹ * g * ((1 - ((M - N) / M) ^ J) / N)) := by
  rw [pow_succ]
  generalize ((M - N) / M) ^ J = t
  field_simp
  ring

section
variable {b : Bits W} {pr : (W → Prop) → ℝ} (hf : FairBits b pr)
include hf

theorem soon_lower (n k : Nat) (hk : k ≤ n) (Q : W → Prop) (g : ℝ)
    (hQ : ∀ u : BitEvent, (∀ x ∈ u, x.2 < 2 ^ x.1) → BitEvent.size u * g ≤ pr (Then b u Q)) (J : Nat) :
    ∀ u : BitEvent, (∀ x ∈ u, x.2 < 2 ^ x.1) →
      BitEvent.size u * g * ((1 - ((2 ^ (n + 1).size - (n + 1)) / 2 ^ (n + 1).size : ℝ) ^ J) / (n + 1)) ≤
        pr (Then b u (Soon b n k Q J)) := by
  have hsz : n + 1 < 2 ^ (n + 1).size := Nat.lt_size_self _
  induction J with
  | zero =>
    intro u hu
    simpa using hf.nonneg _
  | succ J ih =>
    intro u hu
    have hlt : ∀ v ∈ insert k (Finset.Ico (n + 1) (2 ^ (n + 1).size)), v < 2 ^ (n + 1).size := by
      intro v hv
      rcases Finset.mem_insert.1 hv with rfl | hv
      · omega
      · exact (Finset.mem_Ico.1 hv).2
    have h1 := pr_sum_le hf.nonneg hf.add (insert k (Finset.Ico (n + 1) (2 ^ (n + 1).size)))
      (fun v => Then b (u ++ [((n + 1).size, v)]) (if v = k then Q else Soon b n k Q J)) (Then b u (Soon b n k Q (J + 1)))
      (by
        intro v _ v' _ hne w h h'
        rw [then_append] at h h'
        obtain ⟨w1, h1, h2, -⟩ := h
        obtain ⟨w2, h3, h4, -⟩ := h'
        rw [h1] at h3
        cases h3
        exact hne (h2.symm.trans h4))
      (by
        intro v hv w h
        rw [then_append] at h
        obtain ⟨w1, h1, h2, h3⟩ := h
        refine ⟨w1, h1, ?_⟩
        by_cases hvk : v = k
        · rw [if_pos hvk] at h3
          exact .inl ⟨h2.trans hvk, h3⟩
        · rw [if_neg hvk] at h3
          rcases Finset.mem_insert.1 hv with rfl | hv
          · exact absurd rfl hvk
          · exact .inr ⟨by rw [h2]; exact (Finset.mem_Ico.1 hv).1, h3⟩)
    have hk' : k ∉ Finset.Ico (n + 1) (2 ^ (n + 1).size) := by simp; omega
    rw [Finset.sum_insert hk', if_pos rfl] at h1
    have hu' : ∀ v ∈ insert k (Finset.Ico (n + 1) (2 ^ (n + 1).size)), ∀ x ∈ u ++ [((n + 1).size, v)], x.2 < 2 ^ x.1 := by
      intro v hv x hx
      rcases List.mem_append.1 hx with hx | hx
      · exact hu x hx
      · cases List.mem_singleton.1 hx
        exact hlt v hv
    have h2 := hQ _ (hu' k (Finset.mem_insert_self ..))
    have h3 : ∑ v ∈ Finset.Ico (n + 1) (2 ^ (n + 1).size), BitEvent.size u * (1 / 2) ^ (n + 1).size * g *
          ((1 - ((2 ^ (n + 1).size - (n + 1)) / 2 ^ (n + 1).size : ℝ) ^ J) / (n + 1)) ≤
        ∑ v ∈ Finset.Ico (n + 1) (2 ^ (n + 1).size),
          pr (Then b (u ++ [((n + 1).size, v)]) (if v = k then Q else Soon b n k Q J)) := by
      refine Finset.sum_le_sum fun v hv => ?_
      rw [if_neg (show ¬ v = k from fun e => hk' (e ▸ hv)), ← bitEvent_size_append u _ v]
      exact ih _ (hu' v (Finset.mem_insert_of_mem hv))
    rw [Finset.sum_const, Nat.card_Ico, nsmul_eq_mul, Nat.cast_sub hsz.le] at h3
    rw [bitEvent_size_append] at h2
    push_cast at h3
    refine le_trans (le_of_eq ?_) (le_trans (add_le_add h2 h3) h1)
    have hp : (0 : ℝ) < 2 ^ (n + 1).size := by positivity
    have hn : (0 : ℝ) < n + 1 := by positivity
    rw [one_div, inv_pow]
    exact rejection_step _ _ _ _ J hp hn

theorem event_lower (arith : Arith) (i j : Nat) (e : Event) (he : ∀ c ∈ e, c.Proper) :
    ∀ u : BitEvent, (∀ x ∈ u, x.2 < 2 ^ x.1) → BitEvent.size u * (e.map (Condition.fromBits i j)).prod ≤
      pr (Then b u fun w => Event.happens (b.rngWith arith i j) e w = true) := by
  induction e with
  | nil =>
    intro u hu
    rw [List.map_nil, List.prod_nil, mul_one]
    refine le_of_eq ?_
    rw [BitEvent.size, ← hf.event u hu]
    congr 1
    funext w
    apply propext
    simp only [Then, BitEvent.happens, Event.happens, Event.after, Option.isSome_some, and_true, Option.isSome_iff_exists]
  | cons c e ih =>
    intro u hu
    have ih := ih fun c hc => he c (List.mem_cons_of_mem _ hc)
    have hc := he c (List.mem_cons_self ..)
    rw [List.map_cons, List.prod_cons]
    generalize (e.map (Condition.fromBits i j)).prod = g at *
    cases c with
    | below n k =>
      have hsz : n + 1 < 2 ^ (n + 1).size := Nat.lt_size_self _
      have hsz' : (n + 1 : ℝ) < 2 ^ (n + 1).size := by exact_mod_cast hsz
      have hp : (0 : ℝ) < 2 ^ (n + 1).size := by positivity
      have h1 : ∀ J, BitEvent.size u * g * ((1 - ((2 ^ (n + 1).size - (n + 1)) / 2 ^ (n + 1).size : ℝ) ^ J) / (n + 1)) ≤
          pr (Then b u fun w => Event.happens (b.rngWith arith i j) (.below n k :: e) w = true) := by
        intro J
        refine (soon_lower hf n k hc _ g ih J u hu).trans (pr_mono hf.nonneg hf.add ?_)
        rintro w ⟨w', h1, h2⟩
        refine ⟨w', h1, ?_⟩
        obtain ⟨h3, h4⟩ := soon_below hc h2
        show (Event.after _ _ _).isSome = true
        rw [Event.after, if_pos (show ((b.rngWith arith i j).below n w').1.val = k from h3)]
        exact h4
      have h2 : Tendsto (fun J : Nat => BitEvent.size u * g *
          ((1 - ((2 ^ (n + 1).size - (n + 1)) / 2 ^ (n + 1).size : ℝ) ^ J) / (n + 1))) atTop
          (𝓝 (BitEvent.size u * g * ((1 - 0) / (n + 1)))) := by
        refine ((tendsto_const_nhds.sub (tendsto_pow_atTop_nhds_zero_of_lt_one ?_ ?_)).div_const _).const_mul _
        · exact div_nonneg (by linarith) hp.le
        · rw [div_lt_one hp]
          have : (0 : ℝ) < n + 1 := by positivity
          linarith
      have h3 := le_of_tendsto h2 (Eventually.of_forall h1)
      refine le_trans (le_of_eq ?_) h3
      simp only [Condition.fromBits]
      ring
    | unit a c =>
      have h1 := pr_sum_le hf.nonneg hf.add (grid i j a c)
        (fun x => Then b (u ++ [(i, x.1)] ++ [(j, x.2)]) fun w => Event.happens (b.rngWith arith i j) e w = true)
        (Then b u fun w => Event.happens (b.rngWith arith i j) (.unit a c :: e) w = true)
        (by
          intro x _ y _ hne w h h'
          rw [then_append, then_append] at h h'
          obtain ⟨w1, h1, h2, h3, -⟩ := h
          obtain ⟨w2, h4, h5, h6, -⟩ := h'
          rw [h1] at h4
          cases h4
          exact hne (Prod.ext (h2.symm.trans h5) (h3.symm.trans h6)))
        (by
          intro x hx w h
          rw [then_append, then_append] at h
          obtain ⟨w1, h1, h2, h3, h4⟩ := h
          refine ⟨w1, h1, ?_⟩
          show (Event.after _ _ _).isSome = true
          rw [Event.after, if_pos]
          · exact h4
          · have := (Finset.mem_filter.1 hx).2
            rw [← h2, ← h3] at this
            exact this)
      have h2 : ∑ x ∈ grid i j a c, BitEvent.size u * (1 / 2) ^ i * (1 / 2) ^ j * g ≤ ∑ x ∈ grid i j a c,
          pr (Then b (u ++ [(i, x.1)] ++ [(j, x.2)]) fun w => Event.happens (b.rngWith arith i j) e w = true) := by
        refine Finset.sum_le_sum fun x hx => ?_
        rw [← bitEvent_size_append u i x.1, ← bitEvent_size_append _ j x.2]
        refine ih _ fun y hy => ?_
        have hx := (Finset.mem_filter.1 hx).1
        rw [Finset.mem_product, Finset.mem_range, Finset.mem_range] at hx
        simp only [List.append_assoc, List.mem_append, List.mem_singleton] at hy
        rcases hy with hy | rfl | rfl
        · exact hu y hy
        · exact hx.1
        · exact hx.2
      refine le_trans (le_of_eq ?_) (h2.trans h1)
      rw [Finset.sum_const, nsmul_eq_mul]
      simp only [Condition.fromBits, one_div, inv_pow]
      rw [pow_add]
      field_simp

end

/-! ### The other ways an event may come out -/

/-- The ways a draw may come out. -/
def Condition.siblings : Condition → List Condition
  | .below n _ => (List.range (n + 1)).map fun k => .below n k
  | .unit a c => [.unit 0 a, .unit a c, .unit c 1]

/-- The ways draws may come out. -/
def Event.siblings : Event → List Event
  | [] => [[]]
  | c :: e => (Condition.siblings c).flatMap fun c' => (Event.siblings e).map (c' :: ·)

theorem Condition.siblings_self {c : Condition} (h : c.Proper) : c ∈ Condition.siblings c := by
  cases c with
  | below n k => exact List.mem_map.2 ⟨k, List.mem_range.2 (Nat.lt_succ_of_le h), rfl⟩
  | unit a c => simp [Condition.siblings]

theorem Condition.siblings_proper {c : Condition} (h : c.Proper) : ∀ c' ∈ Condition.siblings c, c'.Proper := by
  cases c with
  | below n k =>
    intro c' hc
    obtain ⟨k', hk, rfl⟩ := List.mem_map.1 hc
    exact Nat.le_of_lt_succ (List.mem_range.1 hk)
  | unit a c =>
    obtain ⟨h1, h2, h3⟩ := h
    intro c' hc
    simp only [Condition.siblings, List.mem_cons, List.not_mem_nil, or_false] at hc
    rcases hc with rfl | rfl | rfl
    · exact ⟨le_refl _, h1, h2.trans h3⟩
    · exact ⟨h1, h2, h3⟩
    · exact ⟨h1.trans h2, h3, le_refl _⟩

theorem Event.siblings_self {e : Event} (h : ∀ c ∈ e, c.Proper) : e ∈ Event.siblings e := by
  induction e with
  | nil => simp [Event.siblings]
  | cons c e ih =>
    exact List.mem_flatMap.2 ⟨c, Condition.siblings_self (h c (List.mem_cons_self ..)),
      List.mem_map.2 ⟨e, ih fun c hc => h c (List.mem_cons_of_mem _ hc), rfl⟩⟩

theorem Event.siblings_proper {e : Event} (h : ∀ c ∈ e, c.Proper) : ∀ e' ∈ Event.siblings e, ∀ c ∈ e', c.Proper := by
  induction e with
  | nil => simp [Event.siblings]
  | cons c e ih =>
    intro e' he'
    obtain ⟨c', hc', he'⟩ := List.mem_flatMap.1 he'
    obtain ⟨e'', he'', rfl⟩ := List.mem_map.1 he'
    refine List.forall_mem_cons.2 ⟨Condition.siblings_proper (h c (List.mem_cons_self ..)) c' hc', ?_⟩
    exact ih (fun c hc => h c (List.mem_cons_of_mem _ hc)) e'' he''

/-- One of the ways happens. -/
theorem Condition.siblings_one (r : Rng W) {c : Condition} (h : c.Proper) (f : W → Nat) (w : W) :
    ((Condition.siblings c).map fun c' => match Event.after r [c'] w with | some w' => f w' | none => 0).sum =
      match c with | .below n _ => f (r.below n w).2 | .unit _ _ => f (r.unit w).2 := by
  cases c with
  | below n k =>
    simp only [Condition.siblings, List.map_map, Event.after]
    have hlt := (r.below n w).1.isLt
    have key : ∀ m, ((List.range m).map ((fun c' : Condition => match Event.after r [c'] w with | some w' => f w' | none => 0) ∘
        fun k => Condition.below n k)).sum = if (r.below n w).1.val < m then f (r.below n w).2 else 0 := by
      intro m
      induction m with
      | zero => simp
      | succ m ih =>
        rw [List.range_succ, List.map_append, List.sum_append, ih]
        simp only [List.map_cons, List.map_nil, List.sum_cons, List.sum_nil, Function.comp, Event.after]
        split_ifs <;> simp_all <;> omega
    exact (key (n + 1)).trans (if_pos hlt)
  | unit a c =>
    obtain ⟨h1, h2, h3⟩ := h
    simp only [Condition.siblings, List.map_cons, List.map_nil, List.sum_cons, List.sum_nil, Event.after]
    have h4 := (r.unit w).1.2
    rcases lt_or_ge (r.unit w).1.val a with h5 | h5
    · rw [if_pos ⟨h4.1, h5⟩, if_neg (by intro h; linarith [h.1]), if_neg (by intro h; linarith [h.1])]
      simp
    · rcases lt_or_ge (r.unit w).1.val c with h6 | h6
      · rw [if_neg (by intro h; linarith [h.2]), if_pos ⟨h5, h6⟩, if_neg (by intro h; linarith [h.1])]
        simp
      · rw [if_neg (by intro h; linarith [h.2]), if_neg (by intro h; linarith [h.2]), if_pos ⟨h6, h4.2⟩]
        simp

theorem Event.after_cons (r : Rng W) (c : Condition) (e : Event) (w : W) :
    Event.after r (c :: e) w = (Event.after r [c] w).bind (Event.after r e) := by
  cases c with
  | below n k => simp only [Event.after]; split <;> rfl
  | unit a c => simp only [Event.after]; split <;> rfl

theorem sum_flatMap' {α M : Type} [AddMonoid M] (f : α → List M) (l : List α) : (l.flatMap f).sum = (l.map fun a => (f a).sum).sum := by
  induction l with
  | nil => rfl
  | cons a l ih => rw [List.flatMap_cons, List.sum_append, ih, List.map_cons, List.sum_cons]

theorem Event.siblings_sum (r : Rng W) {e : Event} (h : ∀ c ∈ e, c.Proper) (w : W) :
    ((Event.siblings e).map fun e' => if Event.happens r e' w = true then 1 else 0).sum = 1 := by
  induction e generalizing w with
  | nil => simp [Event.siblings, Event.happens, Event.after]
  | cons c e ih =>
    have ih := ih fun c hc => h c (List.mem_cons_of_mem _ hc)
    simp only [Event.siblings, List.map_flatMap, List.map_map]
    rw [sum_flatMap']
    have h1 := Condition.siblings_one r (h c (List.mem_cons_self ..)) (fun _ => 1) w
    refine Eq.trans (congrArg List.sum (List.map_congr_left fun c' _ => ?_)) (h1.trans ?_)
    · simp only [Function.comp_def]
      cases h2 : Event.after r [c'] w with
      | none =>
        simp only
        rw [List.sum_eq_zero]
        intro x hx
        obtain ⟨e', -, rfl⟩ := List.mem_map.1 hx
        rw [if_neg]
        rw [Event.happens, Event.after_cons, h2]
        exact Bool.false_ne_true
      | some w' =>
        refine Eq.trans (congrArg List.sum (List.map_congr_left fun e' _ => ?_)) (ih w')
        have : Event.happens r (c' :: e') w = Event.happens r e' w' := by
          rw [Event.happens, Event.after_cons, h2]
          rfl
        rw [this]
    · cases c <;> rfl

theorem countP_eq_sum {α : Type} (p : α → Bool) (l : List α) : l.countP p = (l.map fun x => if p x = true then 1 else 0).sum := by
  induction l with
  | nil => rfl
  | cons x l ih => simp [List.countP_cons, ih, Nat.add_comm]

theorem Event.siblings_count (r : Rng W) {e : Event} (h : ∀ c ∈ e, c.Proper) (w : W) :
    (Event.siblings e).countP (fun e' => Event.happens r e' w) = 1 := by
  rw [countP_eq_sum]
  exact Event.siblings_sum r h w

/-! ### Counting -/

theorem grid_card (i j : Nat) {a c : Rat} (h3 : c ≤ 1) :
    (grid i j a c).card = ⌈c * 2 ^ (i + j)⌉₊ - ⌈a * 2 ^ (i + j)⌉₊ := by
  have hp : (0 : Rat) < 2 ^ (i + j) := by positivity
  have hj : 0 < 2 ^ j := by positivity
  rw [← Nat.card_Ico]
  refine Finset.card_nbij (fun x => x.1 * 2 ^ j + x.2) ?_ ?_ ?_
  · intro x hx
    obtain ⟨-, h4, h5⟩ := Finset.mem_filter.1 hx
    rw [le_div_iff₀ hp] at h4
    rw [div_lt_iff₀ hp] at h5
    exact Finset.mem_Ico.2 ⟨Nat.ceil_le.2 h4, Nat.lt_ceil.2 h5⟩
  · intro x hx y hy h
    have hx := (Finset.mem_product.1 (Finset.mem_filter.1 hx).1).2
    have hy := (Finset.mem_product.1 (Finset.mem_filter.1 hy).1).2
    rw [Finset.mem_range] at hx hy
    simp only at h
    have e1 : (x.1 * 2 ^ j + x.2) / 2 ^ j = x.1 := by
      rw [Nat.mul_comm, Nat.mul_add_div hj, Nat.div_eq_of_lt hx, Nat.add_zero]
    have e2 : (y.1 * 2 ^ j + y.2) / 2 ^ j = y.1 := by
      rw [Nat.mul_comm, Nat.mul_add_div hj, Nat.div_eq_of_lt hy, Nat.add_zero]
    have e3 : x.1 = y.1 := by rw [← e1, h, e2]
    rw [e3] at h
    exact Prod.ext e3 (Nat.add_left_cancel h)
  · intro m hm
    obtain ⟨h4, h5⟩ := Finset.mem_Ico.1 hm
    rw [Nat.ceil_le] at h4
    rw [Nat.lt_ceil] at h5
    have h6 : m < 2 ^ (i + j) := by
      have : (m : Rat) < 2 ^ (i + j) := lt_of_lt_of_le h5 (by nlinarith)
      exact_mod_cast this
    have e : m / 2 ^ j * 2 ^ j + m % 2 ^ j = m := by rw [Nat.mul_comm]; exact Nat.div_add_mod m (2 ^ j)
    refine ⟨(m / 2 ^ j, m % 2 ^ j), Finset.mem_coe.2 (Finset.mem_filter.2 ⟨Finset.mem_product.2 ⟨?_, ?_⟩, ?_⟩), e⟩
    · rw [Finset.mem_range, Nat.div_lt_iff_lt_mul hj, ← pow_add]
      exact h6
    · exact Finset.mem_range.2 (Nat.mod_lt _ hj)
    · simp only [e]
      rw [le_div_iff₀ hp, div_lt_iff₀ hp]
      exact ⟨h4, h5⟩

theorem grid_range (i j : Nat) {c : Rat} (h1 : 0 ≤ c) :
    (c : ℝ) * 2 ^ (i + j) ≤ (⌈c * 2 ^ (i + j)⌉₊ : ℝ) ∧ (⌈c * 2 ^ (i + j)⌉₊ : ℝ) < c * 2 ^ (i + j) + 1 := by
  have h2 := Nat.le_ceil (c * 2 ^ (i + j))
  have h3 := Nat.ceil_lt_add_one (show 0 ≤ c * 2 ^ (i + j) by positivity)
  constructor
  · exact_mod_cast h2
  · exact_mod_cast h3

theorem fromBits_unit (i j : Nat) {a c : Rat} (h2 : a ≤ c) (h3 : c ≤ 1) :
    Condition.fromBits i j (.unit a c) = ((⌈c * 2 ^ (i + j)⌉₊ : ℝ) - (⌈a * 2 ^ (i + j)⌉₊ : ℝ)) / 2 ^ (i + j) := by
  have hp : (0 : Rat) < 2 ^ (i + j) := by positivity
  simp only [Condition.fromBits]
  rw [grid_card i j h3, Nat.cast_sub]
  exact Nat.ceil_mono (mul_le_mul_of_nonneg_right h2 hp.le)

theorem fromBits_near (i j : Nat) {a c : Rat} (h1 : 0 ≤ a) (h2 : a ≤ c) (h3 : c ≤ 1) :
    |Condition.fromBits i j (.unit a c) - ((c - a : Rat) : ℝ)| ≤ 1 / 2 ^ (i + j) := by
  have hp : (0 : ℝ) < 2 ^ (i + j) := by positivity
  rw [fromBits_unit i j h2 h3]
  have h4 := grid_range i j h1
  have h5 := grid_range i j (h1.trans h2)
  push_cast
  rw [show ∀ x y : ℝ, x / 2 ^ (i + j) - y = (x - y * 2 ^ (i + j)) / 2 ^ (i + j) from fun x y => by field_simp,
    abs_div, abs_of_pos hp]
  refine div_le_div_of_nonneg_right (abs_le.2 ⟨?_, ?_⟩) hp.le
  · linarith [h4.2, h5.1]
  · linarith [h4.1, h5.2]

theorem fromBits_siblings (i j : Nat) {c : Condition} (h : c.Proper) : ((Condition.siblings c).map (Condition.fromBits i j)).sum = 1 := by
  cases c with
  | below n k =>
    simp only [Condition.siblings, List.map_map]
    rw [show (List.range (n + 1)).map (Condition.fromBits i j ∘ fun k => Condition.below n k) =
      List.replicate (n + 1) (1 / (n + 1 : ℝ)) from List.eq_replicate_iff.2 ⟨by simp, by
        intro x hx
        obtain ⟨k, -, rfl⟩ := List.mem_map.1 hx
        rfl⟩, List.sum_replicate, nsmul_eq_mul]
    have : (0 : ℝ) < n + 1 := by positivity
    push_cast
    field_simp
  | unit a c =>
    obtain ⟨h1, h2, h3⟩ := h
    simp only [Condition.siblings, List.map_cons, List.map_nil, List.sum_cons, List.sum_nil]
    rw [fromBits_unit i j h1 (h2.trans h3), fromBits_unit i j h2 h3, fromBits_unit i j h3 (le_refl _)]
    have hp : (0 : ℝ) < 2 ^ (i + j) := by positivity
    have e : (⌈(1 : Rat) * 2 ^ (i + j)⌉₊ : ℝ) = 2 ^ (i + j) := by
      rw [one_mul, show (2 : Rat) ^ (i + j) = ((2 ^ (i + j) : Nat) : Rat) by push_cast; rfl, Nat.ceil_natCast]
      push_cast
      rfl
    rw [e, zero_mul, Nat.ceil_zero]
    field_simp
    push_cast
    ring

theorem event_siblings_fromBits (i j : Nat) {e : Event} (h : ∀ c ∈ e, c.Proper) :
    ((Event.siblings e).map fun e' => (e'.map (Condition.fromBits i j)).prod).sum = 1 := by
  induction e with
  | nil => simp [Event.siblings]
  | cons c e ih =>
    have ih := ih fun c hc => h c (List.mem_cons_of_mem _ hc)
    simp only [Event.siblings, List.map_flatMap, List.map_map]
    rw [sum_flatMap']
    refine Eq.trans (congrArg List.sum (List.map_congr_left fun c' _ => ?_)) (fromBits_siblings i j (h c (List.mem_cons_self ..)))
    simp only [Function.comp_def, List.map_cons, List.prod_cons]
    rw [List.sum_map_mul_left, ih, mul_one]

/-! ### Exact probabilities -/

section
variable {pr : (W → Prop) → ℝ} (hn : ∀ A, 0 ≤ pr A)
  (ha : ∀ A B, (∀ w, A w → ¬ B w) → pr (fun w => A w ∨ B w) = pr A + pr B)

include ha in
/-- The probability that one of several events happens, of which no two happen together. -/
theorem pr_union (r : Rng W) {β : Type} (L : List (Event × β)) (h1 : ∀ w, L.countP (fun y => Event.happens r y.1 w) ≤ 1) :
    pr (fun w => ∃ y ∈ L, Event.happens r y.1 w = true) = (L.map fun y => pr fun w => Event.happens r y.1 w = true).sum := by
  induction L with
  | nil =>
    have := ha (fun _ => False) (fun _ => False) (fun _ h _ => h)
    simp only [or_self] at this
    simp only [List.not_mem_nil, false_and, exists_false, List.map_nil, List.sum_nil]
    linarith
  | cons y L ih =>
    have h2 : ∀ w, L.countP (fun y => Event.happens r y.1 w) ≤ 1 := by
      intro w
      have := h1 w
      rw [List.countP_cons] at this
      omega
    have e : (fun w => ∃ z ∈ y :: L, Event.happens r z.1 w = true) = fun w =>
        Event.happens r y.1 w = true ∨ ∃ z ∈ L, Event.happens r z.1 w = true := by
      funext w
      simp
    rw [e, ha, ih h2]
    · simp
    · rintro w hw ⟨z, hz, hzw⟩
      have := h1 w
      rw [List.countP_cons, if_pos hw] at this
      have : 0 < L.countP (fun y => Event.happens r y.1 w) := List.countP_pos_iff.2 ⟨z, hz, hzw⟩
      omega

include ha in
/-- Events that divide all outcomes, each giving one result, determine the probability of a result. -/
theorem pr_results (r : Rng W) {β : Type} [DecidableEq β] (L : List (Event × β))
    (h1 : ∀ w, L.countP (fun y => Event.happens r y.1 w) = 1)
    (A : β → W → Prop) (huniq : ∀ w b b', A b w → A b' w → b = b')
    (hA : ∀ y ∈ L, ∀ w, Event.happens r y.1 w = true → A y.2 w) (b : β) :
    pr (A b) = ((L.filter fun y => y.2 = b).map fun y => pr fun w => Event.happens r y.1 w = true).sum := by
  have e : A b = fun w => ∃ y ∈ L.filter (fun y => y.2 = b), Event.happens r y.1 w = true := by
    funext w
    apply propext
    constructor
    · intro hb
      have : 0 < L.countP (fun y => Event.happens r y.1 w) := by rw [h1]; omega
      obtain ⟨y, hy, hyw⟩ := List.countP_pos_iff.1 this
      refine ⟨y, List.mem_filter.2 ⟨hy, ?_⟩, hyw⟩
      simpa using huniq w _ _ (hA y hy w hyw) hb
    · rintro ⟨y, hy, hyw⟩
      obtain ⟨hy, hyb⟩ := List.mem_filter.1 hy
      have : y.2 = b := by simpa using hyb
      rw [← this]
      exact hA y hy w hyw
  rw [e, pr_union ha r]
  intro w
  rw [← h1 w]
  exact List.Sublist.countP_le List.filter_sublist
end

theorem eq_of_sum {α : Type} {f g : α → ℝ} {l : List α} (h : ∀ x ∈ l, f x ≤ g x) (hs : (l.map g).sum ≤ (l.map f).sum) :
    ∀ x ∈ l, g x = f x := by
  induction l with
  | nil => simp
  | cons y l ih =>
    have h1 := h y (List.mem_cons_self ..)
    have h2 : ∀ x ∈ l, f x ≤ g x := fun x hx => h x (List.mem_cons_of_mem _ hx)
    have h3 : (l.map f).sum ≤ (l.map g).sum := List.sum_le_sum h2
    simp only [List.map_cons, List.sum_cons] at hs
    refine List.forall_mem_cons.2 ⟨by linarith, ih h2 (by linarith)⟩

/-- With fair bits, the probability of an event is exactly the product for its draws. -/
theorem event_exact {b : Bits W} {pr : (W → Prop) → ℝ} (hf : FairBits b pr) (arith : Arith) (i j : Nat) (e : Event)
    (he : ∀ c ∈ e, c.Proper) :
    pr (fun w => Event.happens (b.rngWith arith i j) e w = true) = (e.map (Condition.fromBits i j)).prod := by
  refine eq_of_sum (l := Event.siblings e) (f := fun e' => (e'.map (Condition.fromBits i j)).prod)
    (g := fun e' => pr fun w => Event.happens (b.rngWith arith i j) e' w = true) ?_ ?_ e (Event.siblings_self he)
  · intro e' he'
    have := event_lower hf arith i j e' (Event.siblings_proper he e' he') [] (by simp)
    have e2 : Then b [] (fun w => Event.happens (b.rngWith arith i j) e' w = true) =
        fun w => Event.happens (b.rngWith arith i j) e' w = true := by
      funext w
      simp [Then, BitEvent.after]
    rw [e2] at this
    simpa [BitEvent.size] using this
  · rw [event_siblings_fromBits i j he]
    have h1 := pr_union hf.add (b.rngWith arith i j) ((Event.siblings e).map fun e' => (e', ()))
      (fun w => by rw [List.countP_map]; exact (Event.siblings_count _ he w).le)
    rw [List.map_map] at h1
    have h2 : pr (fun _ => True) = 1 := by
      have := hf.event [] (by simp)
      rw [List.map_nil, List.prod_nil] at this
      rw [← this]
      congr 1
      funext w
      simp [BitEvent.happens, BitEvent.after]
    refine h1.symm.le.trans ?_
    rw [← h2]
    exact pr_mono hf.nonneg hf.add fun _ _ => trivial

/-! ### Nearly fair -/

theorem fromBits_range (i j : Nat) {c : Condition} (h : c.Proper) : 0 ≤ Condition.fromBits i j c ∧ Condition.fromBits i j c ≤ 1 := by
  have hn : ∀ c : Condition, 0 ≤ Condition.fromBits i j c := by
    intro c
    cases c with
    | below n k => simp only [Condition.fromBits]; positivity
    | unit a c => simp only [Condition.fromBits]; positivity
  refine ⟨hn c, ?_⟩
  rw [← fromBits_siblings i j h]
  exact List.single_le_sum (fun x hx => by obtain ⟨c', -, rfl⟩ := List.mem_map.1 hx; exact hn c') _
    (List.mem_map.2 ⟨c, Condition.siblings_self h, rfl⟩)

theorem chance_range {c : Condition} (h : c.Proper) : (0 : ℝ) ≤ (c.chance : ℝ) ∧ (c.chance : ℝ) ≤ 1 := by
  cases c with
  | below n k =>
    simp only [Condition.chance]
    have : (0 : ℝ) < ((n + 1 : Nat) : ℝ) := by positivity
    push_cast at *
    exact ⟨by positivity, by rw [div_le_one this]; linarith [(Nat.cast_nonneg n : (0 : ℝ) ≤ n)]⟩
  | unit a c =>
    obtain ⟨h1, h2, h3⟩ := h
    simp only [Condition.chance]
    constructor
    · exact_mod_cast sub_nonneg.2 h2
    · exact_mod_cast (by linarith : c - a ≤ 1)

theorem event_near (i j : Nat) {e : Event} (h : ∀ c ∈ e, c.Proper) :
    |(e.map (Condition.fromBits i j)).prod - (Event.chance e : ℝ)| ≤ e.units * (1 / 2 ^ (i + j)) ∧
      (0 ≤ (e.map (Condition.fromBits i j)).prod ∧ (e.map (Condition.fromBits i j)).prod ≤ 1) := by
  induction e with
  | nil => simp [Event.chance, Event.units]
  | cons c e ih =>
    obtain ⟨h1, h2, h3⟩ := ih fun c hc => h c (List.mem_cons_of_mem _ hc)
    have hc := h c (List.mem_cons_self ..)
    obtain ⟨h4, h5⟩ := fromBits_range i j hc
    obtain ⟨h6, h7⟩ := chance_range hc
    rw [List.map_cons, List.prod_cons]
    refine ⟨?_, mul_nonneg h4 h2, mul_le_one₀ h5 h2 h3⟩
    have e1 : (Event.chance (c :: e) : ℝ) = (c.chance : ℝ) * (Event.chance e : ℝ) := by
      simp [Event.chance]
    rw [e1]
    generalize (e.map (Condition.fromBits i j)).prod = x at *
    generalize (Event.chance e : ℝ) = y at *
    have h8 : |Condition.fromBits i j c * x - (c.chance : ℝ) * y| ≤ |Condition.fromBits i j c - (c.chance : ℝ)| + |x - y| := by
      have : Condition.fromBits i j c * x - (c.chance : ℝ) * y = (Condition.fromBits i j c - (c.chance : ℝ)) * x + (c.chance : ℝ) * (x - y) := by ring
      rw [this]
      refine (abs_add_le _ _).trans (add_le_add ?_ ?_)
      · rw [abs_mul, abs_of_nonneg h2]
        exact mul_le_of_le_one_right (abs_nonneg _) h3
      · rw [abs_mul, abs_of_nonneg h6]
        exact mul_le_of_le_one_left (abs_nonneg _) h7
    refine h8.trans ?_
    cases c with
    | below n k =>
      have : Condition.fromBits i j (.below n k) - ((Condition.below n k).chance : ℝ) = 0 := by
        simp [Condition.fromBits, Condition.chance]
      rw [this, abs_zero, zero_add]
      refine h1.trans (le_of_eq ?_)
      simp [Event.units]
    | unit a c =>
      obtain ⟨g1, g2, g3⟩ := hc
      refine (add_le_add (fromBits_near i j g1 g2 g3) h1).trans (le_of_eq ?_)
      simp only [Event.units, List.countP_cons]
      push_cast
      simp
      ring

theorem nearly_fair_with {b : Bits W} {pr : (W → Prop) → ℝ} (hf : FairBits b pr) (arith : Arith) (i j : Nat) :
    NearlyFair (b.rngWith arith i j) pr (1 / 2 ^ (i + j)) where
  nonneg := hf.nonneg
  add := hf.add
  event e he := by
    rw [event_exact hf arith i j e he]
    exact (event_near i j he).1

end Verif
