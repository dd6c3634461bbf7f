import Verif.Spec.Fair
import Verif.Props.Reachable
import Verif.Proofs.Chances
import Mathlib.Order.Filter.Ultrafilter.Basic
import Mathlib.Order.Filter.Ultrafilter.Defs
import Mathlib.Topology.Algebra.Order.Floor
import Mathlib.Analysis.SpecificLimits.Basic
import Mathlib.Topology.Order.Compact
import Mathlib.Topology.Instances.Real.Lemmas
import Mathlib.Topology.Algebra.Monoid
import Mathlib.Data.Fintype.BigOperators
import Mathlib.Order.Interval.Finset.Nat
/-! A fair source of random numbers exists: tapes of numbers of [0, 1), with the limit of the shares of
tapes whose numbers are multiples of 1/N. -/

namespace Verif
open Spec Props Filter Topology

/-- A tape of numbers to draw. -/
abbrev Tape := Nat → Fraction

/-- Draws from a tape. -/
def tape : Rng Tape where
  arith := .exact
  below n w := (⟨⌊(w 0).val * (n + 1)⌋₊ , by
    have h1 := (w 0).2.1; have h2 := (w 0).2.2
    have : (0 : Rat) < (n : Rat) + 1 := by positivity
    rw [Nat.floor_lt (by positivity)]
    push_cast
    nlinarith⟩, fun i => w (i + 1))
  unit w := (w 0, fun i => w (i + 1))

/-- The numbers that meet a condition. -/
def Condition.left : Condition → Rat
  | .below n k => k / (n + 1)
  | .unit a _ => a
def Condition.right : Condition → Rat
  | .below n k => (k + 1) / (n + 1)
  | .unit _ b => b

theorem Condition.width (c : Condition) : c.chance = Condition.right c - Condition.left c := by
  cases c with
  | below n k =>
    simp only [Condition.chance, Condition.left, Condition.right]
    have : (n : Rat) + 1 ≠ 0 := by positivity
    field_simp
    push_cast
    ring
  | unit a b => rfl

theorem Condition.range {c : Condition} (h : c.Proper) :
    0 ≤ Condition.left c ∧ Condition.left c ≤ Condition.right c ∧ Condition.right c ≤ 1 := by
  cases c with
  | below n k =>
    simp only [Condition.left, Condition.right, Condition.Proper] at *
    have hn : (0 : Rat) < (n : Rat) + 1 := by positivity
    have hk : (k : Rat) ≤ n := by exact_mod_cast h
    refine ⟨by positivity, ?_, ?_⟩
    · rw [div_le_div_iff_of_pos_right hn]; linarith
    · rw [div_le_one hn]; linarith
  | unit a b => exact h

theorem happens_iff (e : Event) (w : Tape) : Event.happens tape e w = true ↔
    ∀ i, (h : i < e.length) → Condition.left e[i] ≤ (w i).val ∧ (w i).val < Condition.right e[i] := by
  unfold Event.happens
  induction e generalizing w with
  | nil => simp [Event.after]
  | cons c e ih =>
    have key : (Event.after tape (c :: e) w).isSome = true ↔
        (Condition.left c ≤ (w 0).val ∧ (w 0).val < Condition.right c) ∧
          (Event.after tape e fun i => w (i + 1)).isSome = true := by
      cases c with
      | below n k =>
        simp only [Event.after, Condition.left, Condition.right]
        have hn : (0 : Rat) < (n : Rat) + 1 := by positivity
        rw [div_le_iff₀ hn, lt_div_iff₀ hn]
        have h0 : 0 ≤ (w 0).val * ((n : Rat) + 1) := mul_nonneg (w 0).2.1 hn.le
        have hk : (tape.below n w).1.val = k ↔ (k : Rat) ≤ (w 0).val * (n + 1) ∧ (w 0).val * (n + 1) < k + 1 :=
          Nat.floor_eq_iff (n := k) h0
        have hs : (tape.below n w).2 = fun i => w (i + 1) := rfl
        by_cases h : (tape.below n w).1.val = k
        · rw [if_pos h, hs]
          simp only [hk.1 h, and_self, true_and]
        · rw [if_neg h]
          simp only [Option.isSome_none, Bool.false_eq_true, false_iff, not_and]
          intro h'
          exact absurd (hk.2 h') h
      | unit a b =>
        simp only [Event.after, Condition.left, Condition.right]
        have hq : (tape.unit w).1 = w 0 := rfl
        have hs : (tape.unit w).2 = fun i => w (i + 1) := rfl
        rw [hq, hs]
        by_cases h : a ≤ (w 0).val ∧ (w 0).val < b
        · rw [if_pos h]
          simp only [h, and_self, true_and]
        · rw [if_neg h]
          simp only [Option.isSome_none, Bool.false_eq_true, false_iff, not_and]
          intro h'
          exact absurd h' h
    rw [key, ih]
    constructor
    · rintro ⟨h1, h2⟩ i hi
      cases i with
      | zero => exact h1
      | succ i => exact h2 i (by simpa using hi)
    · intro h
      exact ⟨h 0 (by simp), fun i hi => h (i + 1) (by simpa using hi)⟩

/-- A multiple of 1/(N+1). -/
def point (N : Nat) (j : Fin (N + 1)) : Fraction := ⟨(j : Nat) / ((N : Rat) + 1), by positivity, by
  have hn : (0 : Rat) < (N : Rat) + 1 := by positivity
  rw [div_lt_one hn]
  have : ((j : Nat) : Rat) < ((N + 1 : Nat) : Rat) := by exact_mod_cast j.2
  push_cast at this
  exact this⟩

/-- The tape that starts with these multiples. -/
def pad (N : Nat) (t : Fin N → Fin (N + 1)) : Tape := fun i =>
  if h : i < N then point N (t ⟨i, h⟩) else point N 0

open Classical in
/-- The share of these tapes. -/
noncomputable def share (A : Tape → Prop) (N : Nat) : ℝ :=
  ((Finset.univ.filter fun t : Fin N → Fin (N + 1) => A (pad N t)).card : ℝ) / ((N : ℝ) + 1) ^ N

theorem share_range (A : Tape → Prop) (N : Nat) : share A N ∈ Set.Icc (0 : ℝ) 1 := by
  classical
  unfold share
  have hp : (0 : ℝ) < ((N : ℝ) + 1) ^ N := by positivity
  refine ⟨by positivity, ?_⟩
  rw [div_le_one hp]
  have h := Finset.card_le_univ (Finset.univ.filter fun t : Fin N → Fin (N + 1) => A (pad N t))
  rw [Fintype.card_fun, Fintype.card_fin, Fintype.card_fin] at h
  exact_mod_cast h

theorem share_add {A B : Tape → Prop} (h : ∀ w, A w → ¬ B w) (N : Nat) :
    share (fun w => A w ∨ B w) N = share A N + share B N := by
  classical
  unfold share
  rw [← add_div, ← Nat.cast_add, ← Finset.card_union_of_disjoint]
  · congr 3
    ext t
    simp
  · rw [Finset.disjoint_left]
    intro t h1 h2
    simp only [Finset.mem_filter, Finset.mem_univ, true_and] at h1 h2
    exact h _ h1 h2

/-- The share of the multiples of 1/(N+1) in an interval. -/
noncomputable def part (c : Condition) (N : Nat) : ℝ :=
  ((Finset.univ.filter fun j : Fin (N + 1) =>
    Condition.left c ≤ (point N j).val ∧ (point N j).val < Condition.right c).card : ℝ) / ((N : ℝ) + 1)

theorem part_eq {c : Condition} (hc : c.Proper) (N : Nat) :
    part c N = (⌈Condition.right c * ((N : Rat) + 1)⌉₊ : ℝ) / ((N : ℝ) + 1) -
      (⌈Condition.left c * ((N : Rat) + 1)⌉₊ : ℝ) / ((N : ℝ) + 1) := by
  obtain ⟨h0, h1, h2⟩ := Condition.range hc
  have hn : (0 : Rat) < (N : Rat) + 1 := by positivity
  have hle : ⌈Condition.left c * ((N : Rat) + 1)⌉₊ ≤ ⌈Condition.right c * ((N : Rat) + 1)⌉₊ :=
    Nat.ceil_mono (by nlinarith)
  have htop : ⌈Condition.right c * ((N : Rat) + 1)⌉₊ ≤ N + 1 := by
    rw [Nat.ceil_le]; push_cast; nlinarith
  unfold part
  rw [← sub_div, ← Nat.cast_sub hle]
  congr 2
  rw [← Nat.card_Ico]
  refine Finset.card_bij (fun j _ => (j : Nat)) ?_ ?_ ?_
  · intro j hj
    simp only [Finset.mem_filter, Finset.mem_univ, true_and] at hj
    unfold point at hj
    rw [le_div_iff₀ hn, div_lt_iff₀ hn] at hj
    rw [Finset.mem_Ico, Nat.ceil_le, Nat.lt_ceil]
    exact hj
  · intro a _ b _ h
    exact Fin.ext h
  · intro j hj
    rw [Finset.mem_Ico, Nat.ceil_le, Nat.lt_ceil] at hj
    have hjN : j < N + 1 := by
      have : j < ⌈Condition.right c * ((N : Rat) + 1)⌉₊ := Nat.lt_ceil.2 hj.2
      omega
    refine ⟨⟨j, hjN⟩, ?_, rfl⟩
    simp only [Finset.mem_filter, Finset.mem_univ, true_and]
    unfold point
    rw [le_div_iff₀ hn, div_lt_iff₀ hn]
    exact hj

theorem part_tendsto {c : Condition} (hc : c.Proper) :
    Tendsto (part c) atTop (𝓝 (c.chance : ℝ)) := by
  obtain ⟨h0, h1, h2⟩ := Condition.range hc
  have hx : Tendsto (fun N : Nat => (N : ℝ) + 1) atTop atTop :=
    tendsto_atTop_add_const_right _ _ tendsto_natCast_atTop_atTop
  have key : ∀ q : Rat, 0 ≤ q → Tendsto (fun N : Nat => (⌈q * ((N : Rat) + 1)⌉₊ : ℝ) / ((N : ℝ) + 1)) atTop
      (𝓝 (q : ℝ)) := by
    intro q hq
    have := (tendsto_nat_ceil_mul_div_atTop (R := ℝ) (a := (q : ℝ)) (by exact_mod_cast hq)).comp hx
    refine this.congr fun N => ?_
    simp only [Function.comp]
    congr 2
    have : ((q * ((N : Rat) + 1) : Rat) : ℝ) = (q : ℝ) * ((N : ℝ) + 1) := by push_cast; rfl
    rw [← this]
    apply eq_of_forall_ge_iff
    intro m
    rw [Nat.ceil_le, Nat.ceil_le]
    exact_mod_cast Iff.rfl
  have := (key _ (h0.trans h1)).sub (key _ h0)
  rw [Condition.width]
  push_cast
  refine this.congr fun N => ?_
  rw [part_eq hc]

theorem share_event (e : Event) {N : Nat} (hN : e.length ≤ N) :
    share (fun w => Event.happens tape e w = true) N =
      ∏ i ∈ Finset.range e.length, (if h : i < e.length then part e[i] N else 1) := by
  classical
  let S : Fin N → Finset (Fin (N + 1)) := fun i =>
    if h : i.val < e.length then Finset.univ.filter fun j : Fin (N + 1) =>
      Condition.left e[i.val] ≤ (point N j).val ∧ (point N j).val < Condition.right e[i.val]
    else Finset.univ
  have hset : (Finset.univ.filter fun t : Fin N → Fin (N + 1) => Event.happens tape e (pad N t) = true) =
      Fintype.piFinset S := by
    ext t
    simp only [Finset.mem_filter, Finset.mem_univ, true_and, Fintype.mem_piFinset, happens_iff]
    constructor
    · intro h i
      by_cases hi : i.val < e.length
      · have := h i.val hi
        simp only [pad, i.2, dif_pos] at this
        simpa [S, hi] using this
      · simp [S, hi]
    · intro h i hi
      have := h ⟨i, by omega⟩
      simp only [S, hi, dif_pos, Finset.mem_filter, Finset.mem_univ, true_and] at this
      simpa [pad, show i < N by omega] using this
  unfold share
  have hcard : ((Finset.univ.filter fun t : Fin N → Fin (N + 1) =>
      Event.happens tape e (pad N t) = true).card : ℝ) = ∏ i : Fin N, ((S i).card : ℝ) := by
    rw [hset, Fintype.card_piFinset]
    push_cast
    rfl
  have hpow : ((N : ℝ) + 1) ^ N = ∏ _i : Fin N, ((N : ℝ) + 1) := by simp
  have h0 : ∀ i : Fin N, ((S i).card : ℝ) / ((N : ℝ) + 1) =
      (fun i : Nat => if h : i < e.length then part e[i] N else 1) i.val := by
    intro i
    by_cases hi : i.val < e.length
    · simp only [S, hi, dif_pos, part]
    · have hn : (N : ℝ) + 1 ≠ 0 := by positivity
      simp only [S, hi, dif_neg, not_false_eq_true, Finset.card_univ, Fintype.card_fin]
      push_cast
      exact div_self hn
  have hprod : ((Finset.univ.filter fun t : Fin N → Fin (N + 1) =>
      Event.happens tape e (pad N t) = true).card : ℝ) / ((N : ℝ) + 1) ^ N =
      ∏ i ∈ Finset.range N, (if h : i < e.length then part e[i] N else 1) := by
    rw [hcard, hpow, ← Finset.prod_div_distrib, Finset.prod_congr rfl fun i _ => h0 i]
    exact Fin.prod_univ_eq_prod_range (fun i : Nat => if h : i < e.length then part e[i] N else 1) N
  have hsub : ∏ i ∈ Finset.range e.length, (if h : i < e.length then part e[i] N else 1) =
      ∏ i ∈ Finset.range N, (if h : i < e.length then part e[i] N else 1) := by
    refine Finset.prod_subset (fun i hi => ?_) fun i _ hi => ?_
    · rw [Finset.mem_range] at *; omega
    · rw [Finset.mem_range] at hi
      rw [dif_neg hi]
  rw [hsub, ← hprod]
  refine congrArg (fun x : ℕ => (x : ℝ) / ((N : ℝ) + 1) ^ N) ?_
  congr 1
  ext t
  simp

theorem chance_eq_prod (e : Event) : (Event.chance e : ℝ) =
    ∏ i ∈ Finset.range e.length, (if h : i < e.length then ((e[i]).chance : ℝ) else 1) := by
  induction e with
  | nil => simp [Event.chance]
  | cons c e ih =>
    have hc : Event.chance (c :: e) = c.chance * Event.chance e := by simp [Event.chance]
    show _ = ∏ i ∈ Finset.range (e.length + 1),
      (if h : i < e.length + 1 then (((c :: e)[i]'h).chance : ℝ) else 1)
    rw [hc, Finset.prod_range_succ', mul_comm]
    push_cast
    rw [ih]
    congr 1
    · refine Finset.prod_congr rfl fun i hi => ?_
      rw [Finset.mem_range] at hi
      simp [hi]

theorem event_tendsto (e : Event) (he : ∀ c ∈ e, c.Proper) :
    Tendsto (share fun w => Event.happens tape e w = true) atTop (𝓝 (Event.chance e : ℝ)) := by
  rw [chance_eq_prod]
  have h1 : Tendsto (fun N => ∏ i ∈ Finset.range e.length, (if h : i < e.length then part e[i] N else 1)) atTop
      (𝓝 (∏ i ∈ Finset.range e.length, (if h : i < e.length then ((e[i]).chance : ℝ) else 1))) := by
    refine tendsto_finsetProd _ fun i hi => ?_
    rw [Finset.mem_range] at hi
    simp only [hi, dif_pos]
    exact part_tendsto (he _ (List.getElem_mem hi))
  refine h1.congr' ?_
  filter_upwards [eventually_ge_atTop e.length] with N hN
  exact (share_event e hN).symm

/-- There is a fair source of random numbers. -/
theorem fair_tape : ∃ pr, Fair tape pr := by
  let U : Ultrafilter ℕ := hyperfilter ℕ
  have hU : (U : Filter ℕ) ≤ atTop := Nat.hyperfilter_le_atTop
  have hlim : ∀ A : Tape → Prop, ∃ x ∈ Set.Icc (0 : ℝ) 1, Tendsto (share A) U (𝓝 x) := by
    intro A
    obtain ⟨x, hx, h⟩ := isCompact_Icc.ultrafilter_le_nhds (U.map (share A)) (by
      rw [le_principal_iff]
      exact Filter.mem_map.2 (Filter.mem_of_superset Filter.univ_mem fun N _ => share_range A N))
    exact ⟨x, hx, h⟩
  choose pr hpr1 hpr2 using hlim
  refine ⟨pr, fun A => (hpr1 A).1, fun A B h => ?_, fun e he => ?_⟩
  · refine tendsto_nhds_unique (hpr2 _) ?_
    refine ((hpr2 A).add (hpr2 B)).congr fun N => ?_
    rw [share_add h]
  · exact tendsto_nhds_unique (hpr2 _) ((event_tendsto e he).mono_left hU)

end Verif
