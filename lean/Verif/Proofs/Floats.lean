import Verif.Spec.Floats
import Verif.Props.Choice
/-! Rounded arithmetic obeys the laws of `Arith`. -/

namespace Verif.Spec
open Verif

variable {p : Nat} {rnd : Rat → Rat}

theorem Binary.zero (p : Nat) : Binary p 0 := ⟨0, 0, by simp, by simp⟩

theorem Nearest.fix (h : Nearest p rnd) {x : Rat} (hx : Binary p x) : rnd x = x := by
  have := h.nearest x x hx
  simp only [sub_self, abs_zero] at this
  exact sub_eq_zero.1 (abs_nonpos_iff.1 this)

/-- Rounding does not go below a number with few bits. -/
theorem Nearest.le (h : Nearest p rnd) {x y : Rat} (hy : Binary p y) (hyx : y ≤ x) : y ≤ rnd x := by
  by_contra hn
  push Not at hn
  have := h.nearest x y hy
  rw [abs_of_nonpos (by linarith), abs_of_nonpos (by linarith)] at this
  linarith

theorem Nearest.ge (h : Nearest p rnd) {x y : Rat} (hy : Binary p y) (hyx : x ≤ y) : rnd x ≤ y := by
  by_contra hn
  push Not at hn
  have := h.nearest x y hy
  rw [abs_of_nonneg (by linarith), abs_of_nonneg (by linarith)] at this
  linarith

/-- A positive number with few bits, with its first bit in the first place. -/
theorem Binary.normal (hp : 1 ≤ p) {x : Rat} (hx : Binary p x) (h0 : 0 < x) :
    ∃ m e : Int, (2 : Int) ^ (p - 1) ≤ m ∧ m < 2 ^ p ∧ x = m * 2 ^ e := by
  obtain ⟨m, e, hm, rfl⟩ := hx
  have h2 : (0 : Rat) < 2 ^ e := zpow_pos (by norm_num) e
  have hm0 : (0 : Rat) < m := by
    by_contra hn
    push Not at hn
    have := mul_nonpos_of_nonpos_of_nonneg hn h2.le
    linarith
  have hm1 : 0 < m := by exact_mod_cast hm0
  rw [abs_of_pos hm1] at hm
  obtain ⟨n, rfl⟩ := Int.eq_ofNat_of_zero_le hm1.le
  have hn0 : n ≠ 0 := by rintro rfl; simp at hm1
  have hnp : n < 2 ^ p := by exact_mod_cast hm
  have hl : Nat.log 2 n < p := Nat.log_lt_of_lt_pow hn0 hnp
  have l1 := Nat.pow_log_le_self 2 hn0
  have l2 := Nat.lt_pow_succ_log_self (b := 2) (by decide) n
  refine ⟨n * 2 ^ (p - 1 - Nat.log 2 n), e - (p - 1 - Nat.log 2 n : Nat), ?_, ?_, ?_⟩
  · have : 2 ^ (p - 1) ≤ n * 2 ^ (p - 1 - Nat.log 2 n) := by
      calc 2 ^ (p - 1) = 2 ^ Nat.log 2 n * 2 ^ (p - 1 - Nat.log 2 n) := by rw [← pow_add]; congr 1; omega
        _ ≤ _ := Nat.mul_le_mul_right _ l1
    exact_mod_cast this
  · have : n * 2 ^ (p - 1 - Nat.log 2 n) < 2 ^ p := by
      calc n * 2 ^ (p - 1 - Nat.log 2 n) < 2 ^ (Nat.log 2 n + 1) * 2 ^ (p - 1 - Nat.log 2 n) :=
            Nat.mul_lt_mul_of_pos_right l2 (by positivity)
        _ = 2 ^ p := by rw [← pow_add]; congr 1; omega
    exact_mod_cast this
  · push_cast
    rw [zpow_sub₀ (by norm_num), zpow_natCast]
    field_simp

/-- The largest number with `p` bits below 1. -/
theorem Binary.lt_one (hp : 1 ≤ p) {u : Rat} (hu : Binary p u) (h1 : u < 1) : u ≤ 1 - 1 / 2 ^ p := by
  have hp2 : (1 : Rat) / 2 ^ p ≤ 1 / 2 := by
    apply one_div_le_one_div_of_le (by norm_num)
    calc (2 : Rat) = 2 ^ 1 := by norm_num
      _ ≤ 2 ^ p := pow_le_pow_right₀ (by norm_num) hp
  obtain ⟨m, e, hm, rfl⟩ := hu
  have hmp : m < 2 ^ p := (le_abs_self m).trans_lt hm
  by_cases he : 0 ≤ e
  · obtain ⟨k, rfl⟩ := Int.eq_ofNat_of_zero_le he
    have : (m * 2 ^ k : Int) < 1 := by
      have h1' : ((m * 2 ^ k : Int) : Rat) < 1 := by push_cast; simpa using h1
      exact_mod_cast h1'
    have h0 : (m * 2 ^ k : Int) ≤ 0 := by omega
    have h0' : ((m * 2 ^ k : Int) : Rat) ≤ 0 := by exact_mod_cast h0
    push_cast at h0'
    have : (m : Rat) * 2 ^ ((k : Nat) : Int) ≤ 0 := by simpa using h0'
    linarith
  · obtain ⟨k, rfl⟩ : ∃ k : Nat, e = -(k : Int) := ⟨(-e).toNat, by omega⟩
    have hk : (0 : Rat) < 2 ^ k := by positivity
    rw [zpow_neg, zpow_natCast, ← div_eq_mul_inv] at h1 ⊢
    rw [div_lt_one hk] at h1
    have hmk : m < 2 ^ k := by exact_mod_cast h1
    by_cases hkp : k ≤ p
    · have : (m : Rat) ≤ 2 ^ k - 1 := by
        have : m ≤ 2 ^ k - 1 := by omega
        exact_mod_cast this
      calc (m : Rat) / 2 ^ k ≤ (2 ^ k - 1) / 2 ^ k := by
            apply div_le_div_of_nonneg_right this hk.le
        _ = 1 - 1 / 2 ^ k := by field_simp
        _ ≤ 1 - 1 / 2 ^ p := by
            have : (1 : Rat) / 2 ^ p ≤ 1 / 2 ^ k :=
              one_div_le_one_div_of_le hk (pow_le_pow_right₀ (by norm_num) hkp)
            linarith
    · have h3 : (m : Rat) ≤ 2 ^ p := by exact_mod_cast hmp.le
      have : (m : Rat) / 2 ^ k ≤ 1 / 2 := by
        rw [div_le_iff₀ hk]
        have : (2 : Rat) ^ (p + 1) ≤ 2 ^ k := pow_le_pow_right₀ (by norm_num) (by omega)
        rw [pow_succ] at this
        linarith
      linarith

/-- Rounding the product of a random number and a number gives less than the number. -/
theorem Nearest.times_lt (hp : 1 ≤ p) (h : Nearest p rnd) {u t : Rat} (hu : Binary p u) (ht : Binary p t)
    (h1 : u < 1) (h0 : 0 < t) : rnd (u * t) < t := by
  have hle := Binary.lt_one hp hu h1
  obtain ⟨m, e, hm1, hm2, rfl⟩ := ht.normal hp h0
  have h2e : (0 : Rat) < 2 ^ e := zpow_pos (by norm_num) e
  have h2p : (0 : Rat) < 2 ^ p := by positivity
  have hpow : (2 : Rat) ^ p = 2 * 2 ^ (p - 1) := by
    rw [← pow_succ']; congr 1; omega
  have hut : u * (m * 2 ^ e) ≤ (1 - 1 / 2 ^ p) * (m * 2 ^ e) := mul_le_mul_of_nonneg_right hle h0.le
  have hm1' : (2 : Rat) ^ (p - 1) ≤ m := by exact_mod_cast hm1
  have hpos : (0 : Int) < 2 ^ (p - 1) := by positivity
  by_contra hn
  push Not at hn
  have hlt : u * (m * 2 ^ e) < m * 2 ^ e := by nlinarith
  by_cases hme : m = 2 ^ (p - 1)
  · -- the number is a power of two: the number before it is half as far away
    have hb : Binary p (((2 * m - 1 : Int) : Rat) * 2 ^ (e - 1)) := by
      refine ⟨2 * m - 1, e - 1, ?_, rfl⟩
      rw [abs_of_nonneg (by omega), hme]
      have : (2 : Int) ^ p = 2 * 2 ^ (p - 1) := by rw [← pow_succ']; congr 1; omega
      omega
    have hval : ((2 * m - 1 : Int) : Rat) * 2 ^ (e - 1) = m * 2 ^ e - 2 ^ e / 2 := by
      push_cast
      rw [zpow_sub₀ (by norm_num)]
      ring
    have hge : u * (m * 2 ^ e) ≤ m * 2 ^ e - 2 ^ e / 2 := by
      have hm' : (m : Rat) = 2 ^ (p - 1) := by exact_mod_cast hme
      have : (1 - 1 / 2 ^ p) * ((m : Rat) * 2 ^ e) = m * 2 ^ e - 2 ^ e / 2 := by
        rw [hm', hpow]
        have : (2 : Rat) ^ (p - 1) ≠ 0 := by positivity
        field_simp
      linarith
    have := h.ge (hb) (hval ▸ hge)
    rw [hval] at this
    linarith
  · have hm3 : (2 : Int) ^ (p - 1) + 1 ≤ m := by omega
    have hm3' : (2 : Rat) ^ (p - 1) + 1 ≤ m := by exact_mod_cast hm3
    have hb : Binary p (((m - 1 : Int) : Rat) * 2 ^ e) :=
      ⟨m - 1, e, by rw [abs_of_nonneg (by omega)]; omega, rfl⟩
    have hval : ((m - 1 : Int) : Rat) * 2 ^ e = m * 2 ^ e - 2 ^ e := by push_cast; ring
    have hgap : 2 ^ e / 2 < m * 2 ^ e - u * (m * 2 ^ e) := by
      have : (1 / 2 ^ p) * ((m : Rat) * 2 ^ e) ≤ m * 2 ^ e - u * (m * 2 ^ e) := by linarith
      refine lt_of_lt_of_le ?_ this
      have h4 : (2 : Rat) ^ (p - 1) * 2 ^ e < m * 2 ^ e := mul_lt_mul_of_pos_right (by linarith) h2e
      have h5 : (2 : Rat) ^ e / 2 = 1 / 2 ^ p * (2 ^ (p - 1) * 2 ^ e) := by
        rw [hpow]
        have : (2 : Rat) ^ (p - 1) ≠ 0 := by positivity
        field_simp
      rw [h5]
      exact mul_lt_mul_of_pos_left h4 (by positivity)
    have hnear := h.nearest (u * (m * 2 ^ e)) _ hb
    rw [hval, abs_of_nonneg (by linarith : 0 ≤ rnd (u * (m * 2 ^ e)) - u * (m * 2 ^ e))] at hnear
    rcases le_total (u * (m * 2 ^ e)) (m * 2 ^ e - 2 ^ e) with hc | hc
    · rw [abs_of_nonneg (by linarith)] at hnear; linarith
    · rw [abs_of_nonpos (by linarith)] at hnear; linarith

open Classical in
/-- Floating point arithmetic of precision `p` (on other numbers: without rounding). -/
noncomputable def floats (p : Nat) (hp : 1 ≤ p) (rnd : Rat → Rat) (h : Nearest p rnd) : Arith where
  plus a b := if Binary p a ∧ Binary p b then rnd (a + b) else a + b
  times u t := if Binary p u ∧ Binary p t then rnd (u * t) else u * t
  plus_zero a := by
    rw [Rat.add_zero]
    split
    · rename_i hb; exact h.fix hb.1
    · rfl
  le_plus a b hb := by
    split
    · rename_i hab; exact h.le hab.1 (by linarith)
    · linarith
  plus_pos a b ha hb := by
    split
    · rename_i hab; exact lt_of_lt_of_le hb (h.le hab.2 (by linarith))
    · linarith
  times_nonneg u t hu ht := by
    split
    · exact h.le (Binary.zero p) (mul_nonneg hu ht)
    · exact mul_nonneg hu ht
  times_lt u t hu h1 ht := by
    split
    · rename_i hb; exact h.times_lt hp hb.1 hb.2 h1 ht
    · nlinarith

end Verif.Spec
