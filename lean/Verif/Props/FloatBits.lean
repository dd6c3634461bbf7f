import Verif.Props.Rounding
import Verif.Props.Bits
import Mathlib.Algebra.Order.Ring.Pow
/-!
# C108: weights in floating point, random numbers from bits
-/

namespace Verif.Props
open Verif Verif.Spec

variable {W : Type} {α : Type} {rnd : Rat → Rat}

/-! ### Probabilities -/

theorem pr_mono {pr : (W → Prop) → ℝ} (h0 : ∀ A, 0 ≤ pr A)
    (hadd : ∀ A B, (∀ w, A w → ¬ B w) → pr (fun w => A w ∨ B w) = pr A + pr B) {A B : W → Prop} (h : ∀ w, A w → B w) :
    pr A ≤ pr B := by
  have e : B = fun w => A w ∨ (B w ∧ ¬ A w) := by
    funext w
    by_cases ha : A w
    · simp [ha, h w ha]
    · simp [ha]
  rw [e, hadd _ _ (fun w ha hb => hb.2 ha)]
  have := h0 fun w => B w ∧ ¬ A w
  linarith

/-- Rounding, for `n` options: the factor by which the limits of the shares move. -/
theorem factor_near (n : Nat) (h : 4 * (n : Rat) ≤ 2 ^ 53) :
    1 - 2 * n / 2 ^ 53 ≤ (1 - 1 / 2 ^ 53) ^ n / (1 + 1 / 2 ^ 53 : Rat) ^ n ∧
    (1 + 1 / 2 ^ 53 : Rat) ^ n / (1 - 1 / 2 ^ 53) ^ n ≤ 1 + 4 * n / 2 ^ 53 := by
  have h1 : 1 - 2 * n / 2 ^ 53 ≤ (1 - 1 / 2 ^ 53) ^ n / (1 + 1 / 2 ^ 53 : Rat) ^ n := by
    rw [← div_pow]
    have hb := one_add_mul_le_pow (a := ((1 - 1 / 2 ^ 53) / (1 + 1 / 2 ^ 53) - 1 : Rat)) (by norm_num) n
    have e : (1 + ((1 - 1 / 2 ^ 53) / (1 + 1 / 2 ^ 53) - 1 : Rat)) = (1 - 1 / 2 ^ 53) / (1 + 1 / 2 ^ 53) := by ring
    rw [e] at hb
    refine le_trans ?_ hb
    have hn : (0 : Rat) ≤ n := by positivity
    have : (-(2 / 2 ^ 53) : Rat) ≤ (1 - 1 / 2 ^ 53) / (1 + 1 / 2 ^ 53) - 1 := by norm_num
    have := mul_le_mul_of_nonneg_left this hn
    have e2 : (n : Rat) * (-(2 / 2 ^ 53)) = - (2 * n / 2 ^ 53) := by ring
    rw [e2] at this
    linarith
  refine ⟨h1, ?_⟩
  have hx : (0 : Rat) ≤ n / 2 ^ 53 := by positivity
  have hx1 : (n : Rat) / 2 ^ 53 ≤ 1 / 4 := by rw [div_le_iff₀ (by positivity)]; linarith
  rw [mul_div_assoc] at h1 ⊢
  have hpos : (0 : Rat) < (1 - 1 / 2 ^ 53) ^ n / (1 + 1 / 2 ^ 53) ^ n := by
    refine div_pos (pow_pos (by norm_num) n) (pow_pos (by norm_num) n)
  rw [← inv_div]
  generalize (1 - 1 / 2 ^ 53) ^ n / (1 + 1 / 2 ^ 53 : Rat) ^ n = f at *
  generalize (n : Rat) / 2 ^ 53 = x at *
  rw [inv_le_comm₀ hpos (by linarith), inv_le_iff_one_le_mul₀ (by linarith)]
  nlinarith

/-- A number with 53 binary places that falls into intervals with nearly their length as probability draws an option with
nearly its share of the weights. -/
theorem near_share {pr : (W → Prop) → ℝ} (h0 : ∀ A, 0 ≤ pr A)
    (hadd : ∀ A B, (∀ w, A w → ¬ B w) → pr (fun w => A w ∨ B w) = pr A + pr B) (h1 : pr (fun _ => True) = 1)
    (u : W → {q : Rat // 0 ≤ q ∧ q < 1}) (hu : ∀ w, Binary 53 (u w).val)
    (hint : ∀ x y : Rat, 0 ≤ x → x ≤ y → y ≤ 1 →
      |pr (fun w => x ≤ (u w).val ∧ (u w).val < y) - ((y - x : Rat) : ℝ)| ≤ 1 / 2 ^ 53)
    (h : Nearest 53 rnd) (ws : List Rat) (hb : ∀ w ∈ ws, Binary 53 w) (hw : ∀ w ∈ ws, 0 ≤ w) (hpos : ∃ w ∈ ws, 0 < w)
    (i : Nat) (hi : i < ws.length) :
    |pr (fun w => weightedIndex (floats 53 (by norm_num) rnd h) (accumulate (floats 53 (by norm_num) rnd h) ws) (u w).val = i) -
      ((ws[i] / ws.sum : Rat) : ℝ)| ≤ ws.length / 2 ^ 50 := by
  have hsum : 0 < ws.sum := by
    obtain ⟨x, hx, hx0⟩ := hpos
    exact lt_of_lt_of_le hx0 (List.single_le_sum hw x hx)
  have hmono := fun {A B : W → Prop} => pr_mono (A := A) (B := B) h0 hadd
  set idx : W → Nat := fun w =>
    weightedIndex (floats 53 (by norm_num) rnd h) (accumulate (floats 53 (by norm_num) rnd h) ws) (u w).val with hidx
  have hlen : 0 < ws.length := by omega
  have hle : ∀ j, (ws.take j).sum ≤ ws.sum := fun j => sum_take_le hw j
  have hnn : ∀ j, 0 ≤ (ws.take j).sum := fun j => List.sum_nonneg fun y hy => hw y (List.mem_of_mem_take hy)
  have hmon : ∀ j k, j ≤ k → (ws.take j).sum ≤ (ws.take k).sum := by
    intro j k hjk
    have := sum_take_le (ws := ws.take k) (fun y hy => hw y (List.mem_of_mem_take hy)) j
    rwa [List.take_take, Nat.min_eq_left hjk] at this
  have hwi : 0 ≤ ws[i] := hw _ (List.getElem_mem hi)
  have hS : (ws.take (i + 1)).sum = (ws.take i).sum + ws[i] := by
    rw [sum_take_succ ws i hi, List.getD_eq_getElem?_getD, List.getElem?_eq_getElem hi]
    rfl
  by_cases hsmall : 4 * (ws.length : Rat) ≤ 2 ^ 53
  swap
  · -- so many options that nothing is claimed
    have e1 : pr (fun w => idx w = i) ≤ 1 := by rw [← h1]; exact hmono fun _ _ => trivial
    have e2 := h0 fun w => idx w = i
    have e3 : (0 : Rat) ≤ ws[i] / ws.sum := div_nonneg hwi hsum.le
    have e4 : ws[i] / ws.sum ≤ 1 := by
      rw [div_le_one hsum]
      have := hle (i + 1)
      have := hnn i
      linarith
    have e3' : (0 : ℝ) ≤ ((ws[i] / ws.sum : Rat) : ℝ) := by exact_mod_cast e3
    have e4' : ((ws[i] / ws.sum : Rat) : ℝ) ≤ 1 := by exact_mod_cast e4
    have e5 : (1 : ℝ) ≤ ws.length / 2 ^ 50 := by
      rw [le_div_iff₀ (by positivity)]
      have : (2 : ℝ) ^ 53 < 4 * (ws.length : ℝ) := by exact_mod_cast not_le.1 hsmall
      linarith
    rw [abs_le]
    constructor <;> linarith
  obtain ⟨f1, f2⟩ := factor_near ws.length hsmall
  have hG : (0 : Rat) < (1 + 1 / 2 ^ 53) ^ ws.length := pow_pos (by norm_num) _
  have hH : (0 : Rat) < (1 - 1 / 2 ^ 53) ^ ws.length := pow_pos (by norm_num) _
  have hHG : (1 - 1 / 2 ^ 53 : Rat) ^ ws.length ≤ (1 + 1 / 2 ^ 53) ^ ws.length :=
    pow_le_pow_left₀ (by norm_num) (by norm_num) _
  -- the interval of the number drawn
  have hdraw : ∀ w, (ws.take (idx w)).sum / ws.sum * ((1 - 1 / 2 ^ 53) ^ ws.length / (1 + 1 / 2 ^ 53) ^ ws.length) ≤ (u w).val ∧
      (u w).val < (ws.take (idx w + 1)).sum / ws.sum * ((1 + 1 / 2 ^ 53) ^ ws.length / (1 - 1 / 2 ^ 53) ^ ws.length) := by
    intro w
    have hd := (float_draw (by norm_num) h ws hb hw hpos (u w).val (hu w) (u w).2.1 (u w).2.2 (idx w)).1.1 rfl
    obtain ⟨s1, s2⟩ := float_share (by norm_num) h ws hb hw (u w).val (u w).2.1 (idx w) hd
    constructor
    · rw [div_mul_div_comm, div_le_iff₀ (mul_pos hsum hG)]
      linarith
    · rw [div_mul_div_comm, lt_div_iff₀ (mul_pos hsum hH)]
      linarith
  have hr1 : (1 - 1 / 2 ^ 53) ^ ws.length / (1 + 1 / 2 ^ 53 : Rat) ^ ws.length ≤ 1 := (div_le_one hG).2 hHG
  have hr0 : 0 ≤ (1 - 1 / 2 ^ 53) ^ ws.length / (1 + 1 / 2 ^ 53 : Rat) ^ ws.length := (div_pos hH hG).le
  have hR1 : 1 ≤ (1 + 1 / 2 ^ 53) ^ ws.length / (1 - 1 / 2 ^ 53 : Rat) ^ ws.length := (one_le_div hH).2 hHG
  generalize (1 - 1 / 2 ^ 53) ^ ws.length / (1 + 1 / 2 ^ 53 : Rat) ^ ws.length = f at *
  generalize (1 + 1 / 2 ^ 53) ^ ws.length / (1 - 1 / 2 ^ 53 : Rat) ^ ws.length = F at *
  have hdm : ∀ {x y : Rat}, x ≤ y → x / ws.sum ≤ y / ws.sum := fun h => div_le_div_of_nonneg_right h hsum.le
  set a := (ws.take i).sum / ws.sum with ha
  set b := (ws.take (i + 1)).sum / ws.sum with hb'
  have hshare : ws[i] / ws.sum = b - a := by rw [hb', ha, hS]; ring
  have ha0 : 0 ≤ a := div_nonneg (hnn i) hsum.le
  have hab : a ≤ b := hdm (hmon _ _ (by omega))
  have hb1 : b ≤ 1 := (div_le_one hsum).2 (hle _)
  -- later options
  have hlater : pr (fun w => i < idx w) ≤ ((1 - b * f : Rat) : ℝ) + 1 / 2 ^ 53 := by
    have h2 := hint (b * f) 1 (mul_nonneg (ha0.trans hab) hr0) (by nlinarith) le_rfl
    have h3 : pr (fun w => i < idx w) ≤ pr (fun w => b * f ≤ (u w).val ∧ (u w).val < 1) := by
      refine hmono fun w hw => ⟨le_trans ?_ (hdraw w).1, (u w).2.2⟩
      exact mul_le_mul_of_nonneg_right (hdm (hmon _ _ hw)) hr0
    rw [abs_le] at h2
    linarith [h2.2]
  -- earlier options
  have hearlier : pr (fun w => idx w < i) ≤ ((a * F : Rat) : ℝ) + 1 / 2 ^ 53 := by
    have haF : 0 ≤ a * F := mul_nonneg ha0 (by linarith)
    have h2 := hint 0 (min 1 (a * F)) le_rfl (le_min (by norm_num) haF) (min_le_left _ _)
    have h3 : pr (fun w => idx w < i) ≤ pr (fun w => 0 ≤ (u w).val ∧ (u w).val < min 1 (a * F)) := by
      refine hmono fun w hw => ⟨(u w).2.1, lt_min (u w).2.2 (lt_of_lt_of_le (hdraw w).2 ?_)⟩
      exact mul_le_mul_of_nonneg_right (hdm (hmon _ _ hw)) (by linarith)
    have h4 : ((min 1 (a * F) - 0 : Rat) : ℝ) ≤ ((a * F : Rat) : ℝ) := by
      rw [sub_zero]
      exact_mod_cast min_le_right 1 (a * F)
    rw [abs_le] at h2
    linarith [h2.2]
  -- the option itself
  have hself : pr (fun w => idx w = i) ≤ ((b * F - a * f : Rat) : ℝ) + 1 / 2 ^ 53 := by
    have hbF : b ≤ b * F := by nlinarith
    have haf : a * f ≤ a := by nlinarith
    have h2 := hint (a * f) (min 1 (b * F)) (mul_nonneg ha0 hr0) (le_min (by linarith) (by linarith)) (min_le_left _ _)
    have h3 : pr (fun w => idx w = i) ≤ pr (fun w => a * f ≤ (u w).val ∧ (u w).val < min 1 (b * F)) := by
      refine hmono fun w hw => ?_
      have hd := hdraw w
      rw [hw] at hd
      exact ⟨hd.1, lt_min (u w).2.2 hd.2⟩
    have h4 : ((min 1 (b * F) - a * f : Rat) : ℝ) ≤ ((b * F - a * f : Rat) : ℝ) := by
      have : min 1 (b * F) - a * f ≤ b * F - a * f := by linarith [min_le_right 1 (b * F)]
      exact_mod_cast this
    rw [abs_le] at h2
    linarith [h2.2]
  have hall : pr (fun w => idx w = i) + (pr (fun w => idx w < i) + pr (fun w => i < idx w)) = 1 := by
    rw [← hadd _ _ (fun w h h' => by omega), ← hadd _ _ (fun w h h' => by omega), ← h1]
    congr 1
    funext w
    simp only [eq_iff_iff, iff_true]
    omega
  rw [hshare]
  have hn1 : (1 : Rat) ≤ ws.length := by exact_mod_cast hlen
  have c1 : ((b * F - a * f : Rat) : ℝ) + 1 / 2 ^ 53 ≤ ((b - a : Rat) : ℝ) + ws.length / 2 ^ 50 := by
    have : b * F - a * f + 1 / 2 ^ 53 ≤ b - a + ws.length / 2 ^ 50 := by
      have p1 : b * (F - 1) ≤ 1 * (4 * ws.length / 2 ^ 53) := mul_le_mul hb1 (by linarith) (by linarith) (by norm_num)
      have p2 : a * (1 - f) ≤ 1 * (2 * ws.length / 2 ^ 53) := mul_le_mul (hab.trans hb1) (by linarith) (by linarith) (by norm_num)
      have p3 : (1 : Rat) / 2 ^ 53 ≤ ws.length / 2 ^ 53 := div_le_div_of_nonneg_right hn1 (by norm_num)
      have p4 : (ws.length : Rat) / 2 ^ 50 = 8 * (ws.length / 2 ^ 53) := by ring
      rw [mul_div_assoc, one_mul] at p1 p2
      rw [p4]
      have : (0 : Rat) ≤ ws.length / 2 ^ 53 := by positivity
      linarith
    have := (Rat.cast_le (K := ℝ)).2 this
    push_cast at this ⊢
    exact this
  have c2 : ((b - a : Rat) : ℝ) - ws.length / 2 ^ 50 ≤ 1 - (((a * F : Rat) : ℝ) + 1 / 2 ^ 53 + (((1 - b * f : Rat) : ℝ) + 1 / 2 ^ 53)) := by
    have : b - a - ws.length / 2 ^ 50 ≤ 1 - (a * F + 1 / 2 ^ 53 + (1 - b * f + 1 / 2 ^ 53)) := by
      have p1 : a * (F - 1) ≤ 1 * (4 * ws.length / 2 ^ 53) := mul_le_mul (hab.trans hb1) (by linarith) (by linarith) (by norm_num)
      have p2 : b * (1 - f) ≤ 1 * (2 * ws.length / 2 ^ 53) := mul_le_mul hb1 (by linarith) (by linarith) (by norm_num)
      have p3 : (1 : Rat) / 2 ^ 53 ≤ ws.length / 2 ^ 53 := div_le_div_of_nonneg_right hn1 (by norm_num)
      have p4 : (ws.length : Rat) / 2 ^ 50 = 8 * (ws.length / 2 ^ 53) := by ring
      rw [mul_div_assoc, one_mul] at p1 p2
      rw [p4]
      have : (0 : Rat) ≤ ws.length / 2 ^ 53 := by positivity
      linarith
    have := (Rat.cast_le (K := ℝ)).2 this
    push_cast at this ⊢
    exact this
  rw [abs_le]
  constructor <;> linarith

/-! ### Draws -/

theorem unit_binary (b : Bits W) (w : W) : Binary 53 (b.unit w).1.val := by
  refine ⟨((b.bits 27 w).1.val * 2 ^ 26 + (b.bits 26 (b.bits 27 w).2).1.val : Nat), -53, ?_, ?_⟩
  · have h1 := (b.bits 27 w).1.isLt
    have h2 := (b.bits 26 (b.bits 27 w).2).1.isLt
    rw [abs_of_nonneg (by positivity)]
    have : (b.bits 27 w).1.val * 2 ^ 26 + (b.bits 26 (b.bits 27 w).2).1.val < 2 ^ 53 := by omega
    exact_mod_cast this
  · simp only [Bits.unit, Bits.places]
    rw [div_eq_mul_inv]
    norm_num

theorem fair_true {b : Bits W} {pr : (W → Prop) → ℝ} (hf : FairBits b pr) : pr (fun _ => True) = 1 := by
  have := hf.event [] (by simp)
  have e : BitEvent.happens b [] = fun _ => True := by
    funext w
    simp [BitEvent.happens, BitEvent.after]
  rw [e] at this
  simpa using this

/-- **C108.**  Weights added and multiplied in double precision and a random number made from fair bits: the probability
that the option at position `i` is drawn is its share of the weights, up to the number of options times `2⁻⁵⁰`. -/
theorem double_draw (b : Bits W) (pr : (W → Prop) → ℝ) (hf : FairBits b pr) (h : Nearest 53 rnd) (ws : List Rat)
    (hb : ∀ w ∈ ws, Binary 53 w) (hw : ∀ w ∈ ws, 0 ≤ w) (hpos : ∃ w ∈ ws, 0 < w) (i : Nat) (hi : i < ws.length) :
    |pr (fun w => weightedIndex (floats 53 (by norm_num) rnd h) (accumulate (floats 53 (by norm_num) rnd h) ws) (b.unit w).1.val = i) -
      ((ws[i] / ws.sum : Rat) : ℝ)| ≤ ws.length / 2 ^ 50 :=
  near_share hf.nonneg hf.add (fair_true hf) (fun w => (b.unit w).1) (unit_binary b)
    (fun x y hx hxy hy => bits_unit_near b pr hf x y hx hxy hy) h ws hb hw hpos i hi

/-- The probability of one of several results. -/
theorem near_several {pr : (W → Prop) → ℝ} (h0 : ∀ A, 0 ≤ pr A)
    (hadd : ∀ A B, (∀ w, A w → ¬ B w) → pr (fun w => A w ∨ B w) = pr A + pr B) (f : W → Nat) (p : Nat → Rat) (ε : ℝ)
    (S : Finset Nat) (h : ∀ i ∈ S, |pr (fun w => f w = i) - (p i : ℝ)| ≤ ε) :
    |pr (fun w => f w ∈ S) - ((∑ i ∈ S, p i : Rat) : ℝ)| ≤ S.card * ε := by
  induction S using Finset.induction with
  | empty =>
    have := hadd (fun _ => False) (fun _ => False) (fun _ h _ => h)
    simp only [or_self] at this
    have : pr (fun _ => False) = 0 := by linarith
    simp [this]
  | insert i S hi ih =>
    have ih := ih fun j hj => h j (Finset.mem_insert_of_mem hj)
    have hi' := h i (Finset.mem_insert_self _ _)
    have e : (fun w => f w ∈ insert i S) = fun w => f w = i ∨ f w ∈ S := by
      funext w
      simp
    rw [e, hadd (fun w => f w = i) (fun w => f w ∈ S) (fun w h1 h2 => hi (h1 ▸ h2)), Finset.sum_insert hi, Finset.card_insert_of_notMem hi]
    rw [abs_le] at *
    push_cast at *
    constructor <;> linarith [hi'.1, hi'.2, ih.1, ih.2]

/-- The positions at which an item is listed, and the weights there. -/
theorem positions [DecidableEq α] (l : List (α × Rat)) (a : α) (q : Rat) :
    (∑ i ∈ (Finset.range l.length).filter (fun i => (l[i]?.map (·.1)) = some a), (l.map (·.2)).getD i 0 / q) =
      ((l.filter fun p => p.1 = a).map (·.2)).sum / q ∧
    ((Finset.range l.length).filter (fun i => (l[i]?.map (·.1)) = some a)).card = (l.filter fun p => p.1 = a).length := by
  rw [Finset.sum_filter, Finset.card_filter]
  induction l with
  | nil => simp
  | cons x l ih =>
    rw [List.length_cons, Finset.sum_range_succ', Finset.sum_range_succ']
    simp only [List.getElem?_cons_succ, List.map_cons, List.getD_cons_succ, List.getElem?_cons_zero, List.getD_cons_zero,
      Option.map_some, Option.some.injEq, ih.1, ih.2, List.filter_cons]
    by_cases h : x.1 = a
    · simp [h]
      ring
    · simp [h]

/-- **C108.**  Jinja's `weighted_choice` with double precision weights and fair bits: an item is returned in proportion to its
weight, up to the number of items times `2⁻⁵⁰` for each time it is listed. -/
theorem double_weighted_choice [DecidableEq α] (b : Bits W) (pr : (W → Prop) → ℝ) (hf : FairBits b pr) (h : Nearest 53 rnd)
    (l : List (α × Rat)) (hb : ∀ p ∈ l, Binary 53 p.2) (hw : ∀ p ∈ l, 0 ≤ p.2) (hpos : ∃ p ∈ l, 0 < p.2) (a : α) :
    |pr (fun w => ∃ w', jinjaWeightedChoice (b.rng (floats 53 (by norm_num) rnd h)) l w = .ok a w') -
      ((((l.filter fun p => p.1 = a).map (·.2)).sum / (l.map (·.2)).sum : Rat) : ℝ)| ≤
        (l.filter fun p => p.1 = a).length * (l.length / 2 ^ 50) := by
  have hb' : ∀ y ∈ l.map (·.2), Binary 53 y := List.forall_mem_map.2 hb
  have hw' : ∀ y ∈ l.map (·.2), 0 ≤ y := List.forall_mem_map.2 hw
  have hpos' : ∃ y ∈ l.map (·.2), 0 < y := by
    obtain ⟨p, hp, h0⟩ := hpos
    exact ⟨_, List.mem_map_of_mem hp, h0⟩
  have hne : l ≠ [] := by
    rintro rfl
    simp at hpos
  set A := floats 53 (by norm_num) rnd h with hA
  have hlt : ∀ w, weightedIndex A (accumulate A (l.map (·.2))) (b.unit w).1.val < l.length := by
    intro w
    obtain ⟨hi, -⟩ := weightedIndex_pos A hw' hpos' (b.unit w).1.2.2 (b.unit w).1.2.1
    simpa using hi
  have hrun : ∀ w, jinjaWeightedChoice (b.rng A) l w =
      .ok (l[weightedIndex A (accumulate A (l.map (·.2))) (b.unit w).1.val]'(hlt w)).1 (b.unit w).2 := by
    intro w
    have c1 : ¬ (accumulate A (l.map (·.2))).length ≠ (l.map (·.1)).length := by rw [accumulate_length]; simp
    have c2 : ¬ (accumulate A (l.map (·.2))).isEmpty = true := by
      rw [List.isEmpty_iff, ← List.length_eq_zero_iff, accumulate_length]
      simpa using hne
    have c3 : ¬ (accumulate A (l.map (·.2))).getLastD 0 ≤ 0 := not_le.2 (accumulate_last_pos A hw' hpos')
    unfold jinjaWeightedChoice
    rw [if_neg (by simpa using hne)]
    have h1 : (b.rng A).choicesCum (l.map (·.1)) (accumulate A (l.map (·.2))) 1 w =
        .ok [(l[weightedIndex A (accumulate A (l.map (·.2))) (b.unit w).1.val]'(hlt w)).1] (b.unit w).2 := by
      simp only [Rng.choicesCum]
      rw [if_neg c1, if_neg c2, if_neg c3]
      have e : (l.map (·.1))[weightedIndex (b.rng A).arith (accumulate A (l.map (·.2))) ((b.rng A).unit w).1.val]? =
          some (l[weightedIndex A (accumulate A (l.map (·.2))) (b.unit w).1.val]'(hlt w)).1 := by
        rw [List.getElem?_map]
        show Option.map _ l[weightedIndex A (accumulate A (l.map (·.2))) (b.unit w).1.val]? = _
        rw [List.getElem?_eq_getElem (hlt w)]
        rfl
      rw [e]
      dsimp only
      refine M.bind_of_ok (a := []) (w' := (b.unit w).2) ?_
      rw [if_neg c1, if_neg c2, if_neg c3]
      rfl
    exact M.bind_of_ok h1
  have hset : (fun w => ∃ w', jinjaWeightedChoice (b.rng A) l w = .ok a w') = fun w =>
      weightedIndex A (accumulate A (l.map (·.2))) (b.unit w).1.val ∈
        (Finset.range l.length).filter (fun i => (l[i]?.map (·.1)) = some a) := by
    funext w
    simp only [Finset.mem_filter, Finset.mem_range, hlt w, true_and, List.getElem?_eq_getElem (hlt w), Option.map_some,
      Option.some.injEq, hrun w, eq_iff_iff]
    constructor
    · rintro ⟨w', e⟩
      exact (Res.ok.inj e).1
    · intro e
      exact ⟨_, by rw [e]⟩
  have key := near_several hf.nonneg hf.add (fun w => weightedIndex A (accumulate A (l.map (·.2))) (b.unit w).1.val)
    (fun i => (l.map (·.2)).getD i 0 / (l.map (·.2)).sum) (l.length / 2 ^ 50)
    ((Finset.range l.length).filter (fun i => (l[i]?.map (·.1)) = some a)) (by
      intro i hi
      have hi' : i < (l.map (·.2)).length := by simpa using (Finset.mem_filter.1 hi).1
      have := double_draw b pr hf h (l.map (·.2)) hb' hw' hpos' i hi'
      rw [List.length_map] at this
      rwa [List.getD_eq_getElem?_getD, List.getElem?_eq_getElem hi', Option.getD_some])
  rw [(positions l a _).1, (positions l a 1).2] at key
  rw [hset]
  exact key

/-! ### Choices in templates -/

/-- A choice of one among texts, sampled at random: an integer is drawn, which does not matter, then a number in [0, 1), which
decides. -/
theorem choice_draw (E : Env W) (vars : List (Str × Cmd)) (being : List Str) (opts : List (Str × Rat)) (sep : Str)
    (h2 : 2 ≤ opts.length) (hw : ∀ p ∈ opts, 0 ≤ p.2) (hpos : ∃ p ∈ opts, 0 < p.2) (w : W) (i : Nat) (hi : i < opts.length)
    (hidx : weightedIndex E.rng.arith (accumulate E.rng.arith (opts.map (·.2))) (E.rng.unit (E.rng.below 0 w).2).1.val = i) :
    Samples E vars being (.inr (.variant (opts.map fun p => (.lit p.1 none, p.2)) 1 1 sep none))
      [if E.ignoreWs then squashWhitespace opts[i].1 else opts[i].1] w := by
  have hw' : ∀ y ∈ opts.map (·.2), 0 ≤ y := List.forall_mem_map.2 hw
  have hpos' : ∃ y ∈ opts.map (·.2), 0 < y := by
    obtain ⟨p, hp, h0⟩ := hpos
    exact ⟨_, List.mem_map_of_mem hp, h0⟩
  set ctx : Ctx := ⟨.random, vars, being⟩ with hctx
  set os : List (Cmd × Rat) := opts.map fun p => (.lit p.1 none, p.2) with hos
  have hlen : os.length = opts.length := by simp [hos]
  have hlit : ∀ s, mkGen E.unknown ctx (.lit s none) = .ok (.start ctx (.lit s none)) := by
    intro s
    unfold mkGen chainFuel
    simp [mkGenF, effMethod, Cmd.method, Ctx.withMethod, hctx]
  have hvar : mkGen E.unknown ctx (.variant os 1 1 sep none) = .ok (.start ctx (.variant os 1 1 sep none)) := by
    unfold mkGen chainFuel
    simp [mkGenF, effMethod, Cmd.method, Ctx.withMethod, hctx]
  have hadj : adjustBounds os.length 1 1 = (1, 1) := by
    rw [hlen]
    unfold adjustBounds normBounds
    have : min (1 : Int) opts.length = 1 := by omega
    rw [this]
    rfl
  obtain ⟨s1, q1, o2, ol, ho⟩ : ∃ s1 q1 o2 ol, os = (.lit s1 none, q1) :: o2 :: ol := by
    rw [hos]
    match opts, h2 with
    | a :: b :: l, _ => exact ⟨_, _, _, _, rfl⟩
  -- the first value of the generator
  have hchoose : chooseWithoutReplacement E.rng (os.map (·.1)) (os.map (·.2)) (min 1 1) (E.rng.below 0 w).2 =
      .ok [.lit opts[i].1 none] (E.rng.unit (E.rng.below 0 w).2).2 := by
    generalize (E.rng.below 0 w).2 = w1 at hidx
    have e1 : os.map (·.2) = opts.map (·.2) := by simp [hos, Function.comp_def]
    have e2 : os.map (·.1) = opts.map fun p => .lit p.1 none := by simp [hos, Function.comp_def]
    have hne : opts.map (·.2) ≠ [] := by
      intro h
      have := congrArg List.length h
      simp at this
      simp [this] at h2
    have hloop : chooseLoop E.rng 1 (opts.map fun p => Cmd.lit p.1 none) (opts.map (·.2)) w1 =
        .ok [.lit opts[i].1 none] (E.rng.unit w1).2 := by
      have c1 : ¬ (accumulate E.rng.arith (opts.map (·.2))).length ≠ (opts.map fun p => Cmd.lit p.1 none).length := by
        rw [accumulate_length]; simp
      have c2 : ¬ (accumulate E.rng.arith (opts.map (·.2))).isEmpty = true := by
        rw [List.isEmpty_iff, ← List.length_eq_zero_iff, accumulate_length]
        simpa using hne
      have c3 : ¬ (accumulate E.rng.arith (opts.map (·.2))).getLastD 0 ≤ 0 := not_le.2 (accumulate_last_pos _ hw' hpos')
      have h1 : E.rng.choicesCum (opts.map fun p => Cmd.lit p.1 none) (accumulate E.rng.arith (opts.map (·.2))) 1 w1 =
          .ok [.lit opts[i].1 none] (E.rng.unit w1).2 := by
        simp only [Rng.choicesCum]
        rw [if_neg c1, if_neg c2, if_neg c3]
        rw [hidx, List.getElem?_map, List.getElem?_eq_getElem hi]
        dsimp only [Option.map_some]
        refine M.bind_of_ok (a := []) (w' := (E.rng.unit w1).2) ?_
        rw [if_neg c1, if_neg c2, if_neg c3]
      unfold chooseLoop
      exact M.bind_of_ok h1
    rw [e1, e2]
    unfold chooseWithoutReplacement
    rw [if_neg (by rw [List.length_map]; omega)]
    have : (opts.map (·.2)).isEmpty = false := by simpa using hne
    simp only [this, Bool.false_eq_true, if_false, List.length_map, ne_eq, not_true_eq_false]
    obtain ⟨v1, v2, vs, hv⟩ : ∃ v1 v2 vs, (opts.map fun p => Cmd.lit p.1 none) = v1 :: v2 :: vs := by
      match opts, h2 with
      | a :: b :: l, _ => exact ⟨_, _, _, rfl⟩
    rw [hv] at hloop ⊢
    exact hloop
  have hstep : (lim E).G (.start ctx (.variant os 1 1 sep none)) w =
      .ok (some (opts[i].1, .randVar ctx os 1 1 sep)) (E.rng.unit (E.rng.below 0 w).2).2 := by
    rw [lim_start (by simp)]
    have hs : startG E (lim E) ctx (.variant os 1 1 sep none) = Pure.pure (Gen.randVar ctx os 1 1 sep) := by
      rw [ho]
      rfl
    rw [hs]
    refine (M.bind_of_ok (a := Gen.randVar ctx os 1 1 sep) (w' := w) rfl).trans ?_
    rw [lim_G]
    simp only [stepG, hadj]
    refine (M.bind_of_ok (a := (1 : Int)) (w' := (E.rng.below 0 w).2) ?_).trans ?_
    · simp [Rng.randint]
    refine (M.bind_of_ok hchoose).trans ?_
    have hg : mkGens E.unknown ctx [.lit opts[i].1 none] = .ok [.start ctx (.lit opts[i].1 none)] := by
      simp [mkGens, hlit]
    rw [hg]
    refine (M.bind_of_ok (a := [Gen.start ctx (.lit opts[i].1 none)]) (w' := (E.rng.unit (E.rng.below 0 w).2).2) rfl).trans ?_
    have hrot : (lim E).rotate [.start ctx (.lit opts[i].1 none)] (E.rng.unit (E.rng.below 0 w).2).2 =
        .ok ([opts[i].1], [.rep opts[i].1]) (E.rng.unit (E.rng.below 0 w).2).2 := by
      have : (lim E).G (.start ctx (.lit opts[i].1 none)) = Pure.pure (some (opts[i].1, .rep opts[i].1)) := by
        rw [lim_G]
        rfl
      unfold Recs.rotate Recs.next!
      rw [this]
      rfl
    refine (M.bind_of_ok hrot).trans ?_
    simp [joined]
  have hG : ∃ g g' w', sampleGen E ctx (.inr (.variant os 1 1 sep none)) = .ok g ∧
      (lim E).G g w = .ok (some (if E.ignoreWs then squashWhitespace opts[i].1 else opts[i].1, g')) w' := by
    have ht : (Cmd.variant os 1 1 sep none).truthy = true := by
      rw [ho]
      rfl
    refine ⟨if E.ignoreWs then .squash (.start ctx (.variant os 1 1 sep none)) else .start ctx (.variant os 1 1 sep none), ?_⟩
    by_cases hi : E.ignoreWs = true
    · refine ⟨.squash (.randVar ctx os 1 1 sep), (E.rng.unit (E.rng.below 0 w).2).2, ?_, ?_⟩
      · simp [sampleGen, ht, hvar]
      · simp only [hi, if_true]
        rw [lim_G]
        exact M.bind_of_ok hstep
    · refine ⟨.randVar ctx os 1 1 sep, (E.rng.unit (E.rng.below 0 w).2).2, ?_, ?_⟩
      · simp [sampleGen, ht, hvar]
      · simp only [hi, Bool.false_eq_true, if_false]
        exact hstep
  obtain ⟨g, g', w', hg, hgw⟩ := hG
  obtain ⟨N, hN⟩ := nextG_iff.2 hgw
  refine ⟨N, fun n hn => ?_⟩
  show (samplePrompts E n ctx (.inr (.variant os 1 1 sep none)) 1 w).1 = _
  simp only [samplePrompts, hg, collect, nextG, hN n hn]

/-- **C108.**  A choice of one among texts, sampled at random with double precision weights and fair bits: a prompt comes out
in proportion to the weights of the options that give it, up to the number of options times `2⁻⁵⁰` for each of them. -/
theorem double_choice (E : Env W) (b : Bits W) (pr : (W → Prop) → ℝ) (hf : FairBits b pr) (h : Nearest 53 rnd)
    (hE : E.rng = b.rng (floats 53 (by norm_num) rnd h)) (vars : List (Str × Cmd)) (being : List Str)
    (opts : List (Str × Rat)) (sep : Str) (h2 : 2 ≤ opts.length) (hb : ∀ p ∈ opts, Binary 53 p.2) (hw : ∀ p ∈ opts, 0 ≤ p.2)
    (hpos : ∃ p ∈ opts, 0 < p.2) (out : Str → Str) (hout : ∀ s, out s = if E.ignoreWs then squashWhitespace s else s) (s : Str) :
    |pr (Samples E vars being (.inr (.variant (opts.map fun p => (.lit p.1 none, p.2)) 1 1 sep none)) [s]) -
      ((((opts.filter fun p => out p.1 = s).map (·.2)).sum / (opts.map (·.2)).sum : Rat) : ℝ)| ≤
        (opts.filter fun p => out p.1 = s).length * (opts.length / 2 ^ 50) := by
  have hb' : ∀ y ∈ opts.map (·.2), Binary 53 y := List.forall_mem_map.2 hb
  have hw' : ∀ y ∈ opts.map (·.2), 0 ≤ y := List.forall_mem_map.2 hw
  have hpos' : ∃ y ∈ opts.map (·.2), 0 < y := by
    obtain ⟨p, hp, h0⟩ := hpos
    exact ⟨_, List.mem_map_of_mem hp, h0⟩
  set A := floats 53 (by norm_num) rnd h with hA
  set u : W → {q : Rat // 0 ≤ q ∧ q < 1} := fun w => (b.unit (b.below 0 w).2).1 with hu
  set idx : W → Nat := fun w => weightedIndex A (accumulate A (opts.map (·.2))) (u w).val with hidx
  have hlt : ∀ w, idx w < opts.length := by
    intro w
    obtain ⟨hi, -⟩ := weightedIndex_pos A hw' hpos' (u w).2.2 (u w).2.1
    simpa using hi
  have hint : ∀ x y : Rat, 0 ≤ x → x ≤ y → y ≤ 1 →
      |pr (fun w => x ≤ (u w).val ∧ (u w).val < y) - ((y - x : Rat) : ℝ)| ≤ 1 / 2 ^ 53 := by
    intro x y hx hxy hy
    have := (bits_nearly_fair b A pr hf).event [.below 0 0, .unit x y] (by
      simp only [List.mem_cons, List.not_mem_nil, or_false]
      rintro c (rfl | rfl)
      · exact Nat.le_refl 0
      · exact ⟨hx, hxy, hy⟩)
    have e1 : (fun w => Event.happens (b.rng A) [.below 0 0, .unit x y] w = true) =
        fun w => x ≤ (u w).val ∧ (u w).val < y := by
      funext w
      have hz : ((b.rng A).below 0 w).1.val = 0 := by have := ((b.rng A).below 0 w).1.isLt; omega
      simp only [Event.happens, Event.after, hz, if_true]
      show (Option.isSome (if x ≤ (u w).val ∧ (u w).val < y then _ else _) = true) = _
      split
      · rename_i hc; simp [hc]
      · rename_i hc; simp [hc]
    rw [e1] at this
    simpa [Event.chance, Condition.chance, Event.units] using this
  have hset : Samples E vars being (.inr (.variant (opts.map fun p => (.lit p.1 none, p.2)) 1 1 sep none)) [s] = fun w =>
      idx w ∈ (Finset.range (opts.map fun p => (out p.1, p.2)).length).filter
        (fun i => ((opts.map fun p => (out p.1, p.2))[i]?.map (·.1)) = some s) := by
    funext w
    have hs := choice_draw E vars being opts sep h2 hw hpos w (idx w) (hlt w) (by rw [hE]; rfl)
    rw [← hout] at hs
    simp only [Finset.mem_filter, Finset.mem_range, List.length_map, hlt w, true_and, List.getElem?_map,
      List.getElem?_eq_getElem (hlt w), Option.map_some, Option.some.injEq, eq_iff_iff]
    constructor
    · intro hs'
      simpa using samples_unique hs hs' rfl
    · intro e
      rwa [e] at hs
  have key := near_several hf.nonneg hf.add idx
    (fun i => ((opts.map fun p => (out p.1, p.2)).map (·.2)).getD i 0 / (opts.map (·.2)).sum) (opts.length / 2 ^ 50)
    ((Finset.range (opts.map fun p => (out p.1, p.2)).length).filter
      (fun i => ((opts.map fun p => (out p.1, p.2))[i]?.map (·.1)) = some s)) (by
      intro i hi
      have hi' : i < (opts.map (·.2)).length := by simpa using (Finset.mem_filter.1 hi).1
      have := near_share hf.nonneg hf.add (fair_true hf) u (fun w => unit_binary b _) hint h (opts.map (·.2)) hb' hw' hpos' i hi'
      rw [List.length_map] at this
      rw [List.map_map]
      show |_ - (((opts.map (·.2)).getD i 0 / (opts.map (·.2)).sum : Rat) : ℝ)| ≤ _
      rwa [List.getD_eq_getElem?_getD, List.getElem?_eq_getElem hi', Option.getD_some])
  rw [(positions _ s _).1, (positions _ s 1).2] at key
  rw [hset]
  simpa [List.filter_map, Function.comp_def] using key

/-! ### Wildcards -/

/-- A wildcard whose values are plain texts of unequal weights, sampled at random: the first number in [0, 1) decides. -/
theorem wildcard_draw (E : Env W) (hws : E.ignoreWs = false) (vars v : List (Str × Cmd)) (being : List Str) (path : Str)
    (m : Option Method) (hpath : path ≠ []) (hparse : E.parse path = .ok (.lit path none)) (items : List Item)
    (hget : ∀ w, E.getValues path w = .ok items w) (hvals : ∀ i ∈ items, i.content ≠ [] ∧ E.parse i.content = .ok (.lit i.content none))
    (hw : ∀ i ∈ items, 0 ≤ i.w) (hvar : ∃ i ∈ items, ∃ j ∈ items, i.w ≠ j.w) (hm : m ≠ some .cyc) (w : W)
    (i : Nat) (hi : i < items.length)
    (hidx : weightedIndex E.rng.arith (accumulate E.rng.arith (items.map Item.w)) (E.rng.unit w).1.val = i) :
    Samples E vars being (.inr (.wild (.inl path) m v)) [items[i].content] w := by
  have hw' : ∀ y ∈ items.map Item.w, 0 ≤ y := List.forall_mem_map.2 hw
  have hpos : ∃ y ∈ items.map Item.w, 0 < y := by
    obtain ⟨a, ha, b, hb, hab⟩ := hvar
    rcases lt_or_eq_of_le (hw a ha) with h | h
    · exact ⟨_, List.mem_map_of_mem ha, h⟩
    · exact ⟨_, List.mem_map_of_mem hb, lt_of_le_of_ne (hw b hb) (h ▸ hab)⟩
  have hne : items ≠ [] := by
    rintro rfl
    simp at hi
  have hvaried : hasVariedWeights items = true := by
    obtain ⟨a, ha, b, hb, hab⟩ := hvar
    match items, ha, hb with
    | c :: l, ha, hb =>
      simp only [hasVariedWeights, List.any_eq_true, decide_eq_true_eq]
      by_contra hc
      have hall : ∀ x ∈ c :: l, x.w = c.w := by
        intro x hx
        rcases List.mem_cons.1 hx with rfl | hx
        · rfl
        · by_contra hx'
          exact hc ⟨x, hx, hx'⟩
      exact hab ((hall a ha).trans (hall b hb).symm)
  set ctx : Ctx := ⟨.random, vars, being⟩ with hctx
  have hlit : ∀ (ctx : Ctx) s, ctx.method = .random → mkGen E.unknown ctx (.lit s none) = .ok (.start ctx (.lit s none)) := by
    rintro ⟨_, vars, being⟩ s rfl
    unfold mkGen chainFuel
    simp [mkGenF, effMethod, Cmd.method, Ctx.withMethod]
  have heff : effMethod .random m = .random := by
    unfold effMethod
    cases m with
    | none => rfl
    | some x => cases x <;> first | rfl | exact absurd rfl hm
  have hwild : mkGen E.unknown ctx (.wild (.inl path) m v) = .ok (.start ctx (.wild (.inl path) m v)) := by
    unfold mkGen chainFuel
    simp [mkGenF, Cmd.method, Ctx.withMethod, hctx, heff]
  have hsg : ∀ (ctx : Ctx) s, ctx.method = .random → s ≠ [] → E.parse s = .ok (.lit s none) →
      sampleGen E ctx (.inl s) = .ok (.start ctx (.lit s none)) := by
    intro ctx s hc hs hp
    have : s.isEmpty = false := by simpa using hs
    simp [sampleGen, this, hp, hlit ctx s hc, hws]
  have hlim : ∀ (ctx : Ctx) s, ctx.method = .random → (lim E).G (.start ctx (.lit s none)) = Pure.pure (some (s, .rep s)) := by
    rintro ⟨_, vars, being⟩ s rfl
    rw [lim_G]
    rfl
  -- the first ten draws
  have hten : ∃ vs w', E.rng.choicesCum (items.map Item.content) (cumWeights E.rng.arith items) 10 w =
      .ok (items[i].content :: vs) w' := by
    have c1 : ¬ (accumulate E.rng.arith (items.map Item.w)).length ≠ (items.map Item.content).length := by
      rw [accumulate_length]; simp
    have c2 : ¬ (accumulate E.rng.arith (items.map Item.w)).isEmpty = true := by
      rw [List.isEmpty_iff, ← List.length_eq_zero_iff, accumulate_length]
      simpa using hne
    have c3 : ¬ (accumulate E.rng.arith (items.map Item.w)).getLastD 0 ≤ 0 := not_le.2 (accumulate_last_pos _ hw' hpos)
    have hsum : 0 < (items.map Item.w).sum := by
      obtain ⟨x, hx, hx0⟩ := hpos
      exact lt_of_lt_of_le hx0 (List.single_le_sum hw' x hx)
    obtain ⟨vs, w2, hvs, -, -⟩ := choices_positive E.rng (items.map Item.content) (items.map Item.w) (by simp) hw' hsum 9 (E.rng.unit w).2
    refine ⟨vs, w2, ?_⟩
    rw [cumWeights]
    rw [show (10 : Nat) = 9 + 1 from rfl]
    unfold Rng.choicesCum
    rw [if_neg c1, if_neg c2, if_neg c3]
    simp only [hidx, List.getElem?_map, List.getElem?_eq_getElem hi, Option.map_some]
    exact M.bind_of_ok hvs
  obtain ⟨vs, w', hten⟩ := hten
  have hstep : (lim E).G (.start ctx (.wild (.inl path) m v)) w =
      .ok (some (items[i].content, .randWild (ctx.withVars v) items vs)) w' := by
    rw [lim_start (by simp)]
    have hs : startG E (lim E) ctx (.wild (.inl path) m v) w = .ok (.randWild (ctx.withVars v) items []) w := by
      simp only [startG]
      have h1 : (lim E).sampleFirst E ctx (.inl path) w = .ok path w := by
        unfold Recs.sampleFirst Recs.next!
        rw [hsg ctx path rfl hpath hparse]
        refine (M.bind_of_ok (a := Gen.start ctx (.lit path none)) (w' := w) rfl).trans ?_
        rw [hlim ctx path rfl]
        rfl
      refine (M.bind_of_ok h1).trans ?_
      refine (M.bind_of_ok (hget w)).trans ?_
      have : items.isEmpty = false := by simpa using hne
      rw [this]
      rfl
    refine (M.bind_of_ok hs).trans ?_
    rw [lim_G]
    simp only [stepG]
    have hn : weightedNext E.rng items [] w = .ok (items[i].content, vs) w' := by
      unfold weightedNext
      rw [hvaried]
      exact M.bind_of_ok hten
    refine (M.bind_of_ok hn).trans ?_
    obtain ⟨hv1, hv2⟩ := hvals _ (List.getElem_mem hi)
    dsimp only
    rw [hsg (ctx.withVars v) items[i].content rfl hv1 hv2]
    refine (M.bind_of_ok (a := Gen.start (ctx.withVars v) (.lit items[i].content none)) (w' := w') rfl).trans ?_
    rw [hlim (ctx.withVars v) _ rfl]
    rfl
  obtain ⟨N, hN⟩ := nextG_iff.2 hstep
  refine ⟨N, fun n hn => ?_⟩
  show (samplePrompts E n ctx (.inr (.wild (.inl path) m v)) 1 w).1 = _
  have hg : sampleGen E ctx (.inr (.wild (.inl path) m v)) = .ok (.start ctx (.wild (.inl path) m v)) := by
    simp [sampleGen, Cmd.truthy, hwild, hws]
  simp only [samplePrompts, hg, collect, nextG, hN n hn]

/-- **C108.**  A wildcard whose values are plain texts, sampled at random with double precision weights that are not all equal
and fair bits: a text comes out in proportion to its weight, up to the number of values times `2⁻⁵⁰` for each time it is
listed.  (If all weights are equal, see `bits_choice_uniform`.) -/
theorem double_wildcard (E : Env W) (hws : E.ignoreWs = false) (b : Bits W) (pr : (W → Prop) → ℝ) (hf : FairBits b pr)
    (h : Nearest 53 rnd) (hE : E.rng = b.rng (floats 53 (by norm_num) rnd h)) (vars v : List (Str × Cmd)) (being : List Str)
    (path : Str) (m : Option Method) (hm : m ≠ some .cyc) (hpath : path ≠ []) (hparse : E.parse path = .ok (.lit path none))
    (items : List Item) (hget : ∀ w, E.getValues path w = .ok items w)
    (hvals : ∀ i ∈ items, i.content ≠ [] ∧ E.parse i.content = .ok (.lit i.content none))
    (hb : ∀ i ∈ items, Binary 53 (i.weight.getD 1)) (hw : ∀ i ∈ items, 0 ≤ i.weight.getD 1)
    (hvar : ∃ i ∈ items, ∃ j ∈ items, i.weight.getD 1 ≠ j.weight.getD 1) (s : Str) :
    |pr (Samples E vars being (.inr (.wild (.inl path) m v)) [s]) -
      ((((items.filter fun i => i.content = s).map fun i => i.weight.getD 1).sum /
        (items.map fun i => i.weight.getD 1).sum : Rat) : ℝ)| ≤
        (items.filter fun i => i.content = s).length * (items.length / 2 ^ 50) := by
  have hb' : ∀ y ∈ items.map Item.w, Binary 53 y := List.forall_mem_map.2 hb
  have hw' : ∀ y ∈ items.map Item.w, 0 ≤ y := List.forall_mem_map.2 hw
  have hpos' : ∃ y ∈ items.map Item.w, 0 < y := by
    obtain ⟨a, ha, c, hc, hac⟩ := hvar
    rcases lt_or_eq_of_le (hw a ha) with h | h
    · exact ⟨_, List.mem_map_of_mem ha, h⟩
    · exact ⟨_, List.mem_map_of_mem hc, lt_of_le_of_ne (hw c hc) (h ▸ hac)⟩
  set A := floats 53 (by norm_num) rnd h with hA
  set idx : W → Nat := fun w => weightedIndex A (accumulate A (items.map Item.w)) (b.unit w).1.val with hidx
  have hlt : ∀ w, idx w < items.length := by
    intro w
    obtain ⟨hi, -⟩ := weightedIndex_pos A hw' hpos' (b.unit w).1.2.2 (b.unit w).1.2.1
    simpa using hi
  have hset : Samples E vars being (.inr (.wild (.inl path) m v)) [s] = fun w =>
      idx w ∈ (Finset.range (items.map fun i => (i.content, i.w)).length).filter
        (fun i => ((items.map fun i => (i.content, i.w))[i]?.map (·.1)) = some s) := by
    funext w
    have hs := wildcard_draw E hws vars v being path m hpath hparse items hget hvals hw hvar hm w (idx w) (hlt w) (by rw [hE]; rfl)
    simp only [Finset.mem_filter, Finset.mem_range, List.length_map, hlt w, true_and, List.getElem?_map,
      List.getElem?_eq_getElem (hlt w), Option.map_some, Option.some.injEq, eq_iff_iff]
    constructor
    · intro hs'
      simpa using samples_unique hs hs' rfl
    · intro e
      rwa [e] at hs
  have key := near_several hf.nonneg hf.add idx
    (fun i => ((items.map fun i => (i.content, i.w)).map (·.2)).getD i 0 / (items.map Item.w).sum) (items.length / 2 ^ 50)
    ((Finset.range (items.map fun i => (i.content, i.w)).length).filter
      (fun i => ((items.map fun i => (i.content, i.w))[i]?.map (·.1)) = some s)) (by
      intro i hi
      have hi' : i < (items.map Item.w).length := by simpa using (Finset.mem_filter.1 hi).1
      have := double_draw b pr hf h (items.map Item.w) hb' hw' hpos' i hi'
      rw [List.length_map] at this
      rw [List.map_map]
      show |_ - (((items.map Item.w).getD i 0 / (items.map Item.w).sum : Rat) : ℝ)| ≤ _
      rwa [List.getD_eq_getElem?_getD, List.getElem?_eq_getElem hi', Option.getD_some])
  rw [(positions _ s _).1, (positions _ s 1).2] at key
  rw [hset]
  simpa [List.filter_map, Function.comp_def, Item.w] using key

/-! ### Weights that are rounded when they are read -/

theorem sum_rounded (h : Nearest 53 rnd) (ws : List Rat) (hw : ∀ w ∈ ws, 0 ≤ w) :
    ws.sum * (1 - 1 / 2 ^ 53) ≤ (ws.map rnd).sum ∧ (ws.map rnd).sum ≤ ws.sum * (1 + 1 / 2 ^ 53) := by
  induction ws with
  | nil => simp
  | cons w ws ih =>
    obtain ⟨h1, h2⟩ := ih fun x hx => hw x (by simp [hx])
    have h3 := nearest_error (by norm_num) h w
    rw [abs_of_nonneg (hw w (by simp)), abs_le, div_eq_mul_one_div] at h3
    rw [List.map_cons, List.sum_cons, List.sum_cons]
    constructor <;> linarith [h3.1, h3.2]

theorem rounded_share {x X y Y : Rat} (hx : 0 ≤ x) (hxX : x ≤ X) (hX : 0 < X) (h1 : x * (1 - 1 / 2 ^ 53) ≤ y)
    (h2 : y ≤ x * (1 + 1 / 2 ^ 53)) (h3 : X * (1 - 1 / 2 ^ 53) ≤ Y) (h4 : Y ≤ X * (1 + 1 / 2 ^ 53)) :
    |y / Y - x / X| ≤ 1 / 2 ^ 51 := by
  have hY : 0 < Y := lt_of_lt_of_le (mul_pos hX (by norm_num)) h3
  have hq : x / X ≤ 1 := (div_le_one hX).2 hxX
  have hq0 : 0 ≤ x / X := div_nonneg hx hX.le
  have e : x = x / X * X := by field_simp
  generalize x / X = q at *
  subst e
  rw [abs_le]
  constructor
  · have : q - 1 / 2 ^ 51 ≤ y / Y := by
      rw [le_div_iff₀ hY]
      by_cases hn : 0 ≤ q - 1 / 2 ^ 51
      · refine (mul_le_mul_of_nonneg_left h4 hn).trans (le_trans ?_ h1)
        have : (q - 1 / 2 ^ 51) * (1 + 1 / 2 ^ 53) ≤ q * (1 - 1 / 2 ^ 53) := by nlinarith
        nlinarith
      · have h0 : 0 ≤ y := le_trans (mul_nonneg hx (by norm_num)) h1
        have := mul_nonneg (neg_nonneg.2 (not_le.1 hn).le) hY.le
        linarith
    linarith
  · have : y / Y ≤ q + 1 / 2 ^ 51 := by
      rw [div_le_iff₀ hY]
      refine h2.trans (le_trans ?_ (mul_le_mul_of_nonneg_left h3 (by positivity)))
      have : q * (1 + 1 / 2 ^ 53) ≤ (q + 1 / 2 ^ 51) * (1 - 1 / 2 ^ 53) := by nlinarith
      nlinarith
    linarith

theorem nearest_nonneg (h : Nearest 53 rnd) {x : Rat} (hx : 0 ≤ x) : 0 ≤ rnd x := h.le (Binary.zero _) hx

theorem nearest_pos (h : Nearest 53 rnd) {x : Rat} (hx : 0 < x) : 0 < rnd x := by
  have := nearest_error (by norm_num) h x
  rw [abs_of_pos hx, abs_le, div_eq_mul_one_div] at this
  have h1 := this.1
  norm_num at h1
  linarith

/-- The share of some of the weights, rounded and not. -/
theorem shares_rounded {β : Type} (h : Nearest 53 rnd) (l : List β) (f : β → Rat) (g : β → Bool) (hw : ∀ b ∈ l, 0 ≤ f b)
    (hpos : ∃ b ∈ l, 0 < f b) :
    |((((l.filter g).map fun b => rnd (f b)).sum / (l.map fun b => rnd (f b)).sum : Rat) : ℝ) -
      ((((l.filter g).map f).sum / (l.map f).sum : Rat) : ℝ)| ≤ 1 / 2 ^ 51 := by
  have hw1 : ∀ y ∈ l.map f, 0 ≤ y := List.forall_mem_map.2 hw
  have hw2 : ∀ y ∈ (l.filter g).map f, 0 ≤ y := List.forall_mem_map.2 fun b hb => hw b (List.mem_filter.1 hb).1
  have hsum : 0 < (l.map f).sum := by
    obtain ⟨b, hb, h0⟩ := hpos
    exact lt_of_lt_of_le h0 (List.single_le_sum hw1 _ (List.mem_map_of_mem hb))
  have hle : ((l.filter g).map f).sum ≤ (l.map f).sum := by
    clear hw1 hw2 hsum hpos
    induction l with
    | nil => simp
    | cons b l ih =>
      have := ih fun b hb => hw b (by simp [hb])
      have h0 := hw b (by simp)
      rw [List.filter_cons]
      split <;> simp only [List.map_cons, List.sum_cons] <;> linarith
  obtain ⟨a1, a2⟩ := sum_rounded h _ hw1
  obtain ⟨b1, b2⟩ := sum_rounded h _ hw2
  rw [List.map_map] at a1 a2 b1 b2
  have := rounded_share (List.sum_nonneg hw2) hle hsum b1 b2 a1 a2
  have := (Rat.cast_le (K := ℝ)).2 this
  rw [Rat.cast_abs] at this
  push_cast at this ⊢
  exact this

/-- **C108.**  The same for weights that are any numbers and are rounded to double precision when they are read: in proportion to
the weights as they are written, up to another `2⁻⁵¹`. -/
theorem double_choice_written (E : Env W) (b : Bits W) (pr : (W → Prop) → ℝ) (hf : FairBits b pr) (h : Nearest 53 rnd)
    (hE : E.rng = b.rng (floats 53 (by norm_num) rnd h)) (vars : List (Str × Cmd)) (being : List Str)
    (opts : List (Str × Rat)) (sep : Str) (h2 : 2 ≤ opts.length) (hw : ∀ p ∈ opts, 0 ≤ p.2)
    (hpos : ∃ p ∈ opts, 0 < p.2) (out : Str → Str) (hout : ∀ s, out s = if E.ignoreWs then squashWhitespace s else s) (s : Str) :
    |pr (Samples E vars being (.inr (.variant (opts.map fun p => (.lit p.1 none, rnd p.2)) 1 1 sep none)) [s]) -
      ((((opts.filter fun p => out p.1 = s).map (·.2)).sum / (opts.map (·.2)).sum : Rat) : ℝ)| ≤
        (opts.filter fun p => out p.1 = s).length * (opts.length / 2 ^ 50) + 1 / 2 ^ 51 := by
  have h1 := double_choice E b pr hf h hE vars being (opts.map fun p => (p.1, rnd p.2)) sep (by simpa using h2)
    (List.forall_mem_map.2 fun p _ => h.binary _) (List.forall_mem_map.2 fun p hp => nearest_nonneg h (hw p hp)) (by
      obtain ⟨p, hp, h0⟩ := hpos
      exact ⟨_, List.mem_map_of_mem hp, nearest_pos h h0⟩) out hout s
  have h3 := shares_rounded h opts (·.2) (fun p => out p.1 = s) hw hpos
  simp only [List.map_map, List.filter_map, Function.comp_def, List.length_map] at h1
  rw [abs_le] at *
  constructor <;> linarith [h1.1, h1.2, h3.1, h3.2]

/-- **C108.**  The same for the values of a wildcard. -/
theorem double_wildcard_written (E : Env W) (hws : E.ignoreWs = false) (b : Bits W) (pr : (W → Prop) → ℝ) (hf : FairBits b pr)
    (h : Nearest 53 rnd) (hE : E.rng = b.rng (floats 53 (by norm_num) rnd h)) (vars v : List (Str × Cmd)) (being : List Str)
    (path : Str) (m : Option Method) (hm : m ≠ some .cyc) (hpath : path ≠ []) (hparse : E.parse path = .ok (.lit path none))
    (items : List (Str × Rat)) (hget : ∀ w, E.getValues path w = .ok (items.map fun i => ⟨i.1, some (rnd i.2)⟩) w)
    (hvals : ∀ i ∈ items, i.1 ≠ [] ∧ E.parse i.1 = .ok (.lit i.1 none)) (hw : ∀ i ∈ items, 0 ≤ i.2)
    (hvar : ∃ i ∈ items, ∃ j ∈ items, rnd i.2 ≠ rnd j.2) (s : Str) :
    |pr (Samples E vars being (.inr (.wild (.inl path) m v)) [s]) -
      ((((items.filter fun i => i.1 = s).map (·.2)).sum / (items.map (·.2)).sum : Rat) : ℝ)| ≤
        (items.filter fun i => i.1 = s).length * (items.length / 2 ^ 50) + 1 / 2 ^ 51 := by
  have hpos : ∃ p ∈ items, 0 < p.2 := by
    obtain ⟨i, hi, j, hj, hij⟩ := hvar
    rcases lt_or_eq_of_le (hw i hi) with h0 | h0
    · exact ⟨_, hi, h0⟩
    · refine ⟨_, hj, lt_of_le_of_ne (hw j hj) fun h1 => hij ?_⟩
      rw [← h0, ← h1]
  have h1 := double_wildcard E hws b pr hf h hE vars v being path m hm hpath hparse _ hget
    (List.forall_mem_map.2 hvals) (List.forall_mem_map.2 fun p _ => h.binary _)
    (List.forall_mem_map.2 fun p hp => nearest_nonneg h (hw p hp)) (by
      obtain ⟨i, hi, j, hj, hij⟩ := hvar
      exact ⟨_, List.mem_map_of_mem hi, _, List.mem_map_of_mem hj, hij⟩) s
  have h3 := shares_rounded h items (·.2) (fun p => p.1 = s) hw hpos
  simp only [List.map_map, List.filter_map, Function.comp_def, List.length_map, Option.getD_some] at h1
  rw [abs_le] at *
  constructor <;> linarith [h1.1, h1.2, h3.1, h3.2]

/-! ### Examples -/

/-- Double precision. -/
noncomputable def doubles : Arith := floats 53 (by norm_num) (roundTo 53) (roundTo_nearest (by norm_num))

/-- An environment with fair bits and double precision. -/
noncomputable def doubleEnv : Env Tape := { fairEnv with rng := tapeBits.rng doubles }

theorem binary_one : Binary 53 1 := ⟨1, 0, by norm_num, by norm_num⟩

theorem binary_three : Binary 53 3 := ⟨3, 0, by norm_num, by norm_num⟩

/-- `{3::a|b}` gives `a` with probability 3/4, up to `2⁻⁴⁹`. -/
example : ∃ pr, FairBits tapeBits pr ∧
    |pr (Samples doubleEnv [] [] (.inr (.variant [(.lit c!"a" none, 3), (.lit c!"b" none, 1)] 1 1 c!"," none)) [c!"a"]) - 3 / 4| ≤
      1 / 2 ^ 49 := by
  obtain ⟨pr, hf⟩ := fair_bits
  refine ⟨pr, hf, ?_⟩
  have h := double_choice doubleEnv tapeBits pr hf (roundTo_nearest (by norm_num)) rfl [] [] [(c!"a", 3), (c!"b", 1)] c!"," (by simp)
    (by simp [binary_one, binary_three]) (by simp) (by simp) id (fun s => rfl) c!"a"
  have e1 : (([(c!"a", (3 : Rat)), (c!"b", 1)].filter fun p => id p.1 = c!"a").map (·.2)).sum /
      ([(c!"a", (3 : Rat)), (c!"b", 1)].map (·.2)).sum = 3 / 4 := by decide +kernel
  have e2 : ([(c!"a", (3 : Rat)), (c!"b", 1)].filter fun p => id p.1 = c!"a").length = 1 := by decide +kernel
  rw [e1, e2] at h
  refine (le_of_eq ?_).trans (h.trans ?_)
  · norm_num
  · norm_num

/-- `{0.1::a|0.2::b}`, whose weights are not double precision numbers, gives `a` with probability 1/3, up to `2⁻⁴⁸`. -/
example : ∃ pr, FairBits tapeBits pr ∧
    |pr (Samples doubleEnv [] []
      (.inr (.variant [(.lit c!"a" none, roundTo 53 (1 / 10)), (.lit c!"b" none, roundTo 53 (1 / 5))] 1 1 c!"," none)) [c!"a"]) - 1 / 3| ≤
      1 / 2 ^ 48 := by
  obtain ⟨pr, hf⟩ := fair_bits
  refine ⟨pr, hf, ?_⟩
  have h := double_choice_written doubleEnv tapeBits pr hf (roundTo_nearest (by norm_num)) rfl [] [] [(c!"a", 1 / 10), (c!"b", 1 / 5)]
    c!"," (by simp) (by decide +kernel) (by decide +kernel) id (fun s => rfl) c!"a"
  have e1 : (([(c!"a", (1 / 10 : Rat)), (c!"b", 1 / 5)].filter fun p => id p.1 = c!"a").map (·.2)).sum /
      ([(c!"a", (1 / 10 : Rat)), (c!"b", 1 / 5)].map (·.2)).sum = 1 / 3 := by decide +kernel
  have e2 : ([(c!"a", (1 / 10 : Rat)), (c!"b", 1 / 5)].filter fun p => id p.1 = c!"a").length = 1 := by decide +kernel
  rw [e1, e2] at h
  refine (le_of_eq ?_).trans (h.trans ?_)
  · norm_num
  · norm_num

/-- The wildcard `colors`, with a value of weight 3 and one without a weight. -/
example : ∃ pr, FairBits tapeBits pr ∧
    |pr (Samples doubleEnv [] [] (.inr (.wild (.inl c!"colors") none [])) [c!"red"]) - 1 / 4| ≤ 1 / 2 ^ 49 := by
  obtain ⟨pr, hf⟩ := fair_bits
  refine ⟨pr, hf, ?_⟩
  have h := double_wildcard doubleEnv rfl tapeBits pr hf (roundTo_nearest (by norm_num)) rfl [] [] [] c!"colors" none (by simp)
    (by decide) rfl [⟨c!"red", none⟩, ⟨c!"blue", some 3⟩] (fun w => rfl) (fun i hi => ⟨by
      simp only [List.mem_cons, List.not_mem_nil, or_false] at hi
      rcases hi with rfl | rfl <;> decide, rfl⟩)
    (by simp [binary_one, binary_three]) (by simp) (by simp) c!"red"
  have e1 : ((([⟨c!"red", none⟩, ⟨c!"blue", some 3⟩] : List Item).filter fun i => i.content = c!"red").map fun i => i.weight.getD 1).sum /
      (([⟨c!"red", none⟩, ⟨c!"blue", some 3⟩] : List Item).map fun i => i.weight.getD 1).sum = 1 / 4 := by decide +kernel
  have e2 : (([⟨c!"red", none⟩, ⟨c!"blue", some 3⟩] : List Item).filter fun i => i.content = c!"red").length = 1 := by decide +kernel
  rw [e1, e2] at h
  refine (le_of_eq ?_).trans (h.trans ?_)
  · norm_num
  · norm_num

/-- `weighted_choice`. -/
example : ∃ pr, FairBits tapeBits pr ∧
    |pr (fun w => ∃ w', jinjaWeightedChoice (tapeBits.rng doubles) [(true, 3), (false, 1)] w = .ok true w') - 3 / 4| ≤ 1 / 2 ^ 49 := by
  obtain ⟨pr, hf⟩ := fair_bits
  refine ⟨pr, hf, ?_⟩
  have h := double_weighted_choice tapeBits pr hf (roundTo_nearest (by norm_num)) [(true, 3), (false, 1)]
    (by simp [binary_one, binary_three]) (by simp) (by simp) true
  have e1 : (([(true, (3 : Rat)), (false, 1)].filter fun p => p.1 = true).map (·.2)).sum /
      ([(true, (3 : Rat)), (false, 1)].map (·.2)).sum = 3 / 4 := by decide +kernel
  have e2 : ([(true, (3 : Rat)), (false, 1)].filter fun p => p.1 = true).length = 1 := by decide +kernel
  rw [e1, e2] at h
  refine (le_of_eq ?_).trans (h.trans ?_)
  · norm_num [doubles]
  · norm_num

end Verif.Props
