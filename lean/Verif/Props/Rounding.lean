import Verif.Proofs.Floats
/-!
# C86: rounding of weights
-/

namespace Verif.Props
open Verif Verif.Spec

variable {p : Nat} {rnd : Rat → Rat}

/-! ### A nearest rounding -/

/-- Rounding to a multiple of the last of `p` bits. -/
noncomputable def roundTo (p : Nat) (x : Rat) : Rat :=
  if x = 0 then 0 else round (x / 2 ^ (Int.log 2 |x| + 1 - p)) * 2 ^ (Int.log 2 |x| + 1 - p)

theorem roundTo_error (p : Nat) (x : Rat) : |roundTo p x - x| ≤ |x| / 2 ^ p := by
  unfold roundTo
  split
  · rename_i h; subst h; simp
  · rename_i h
    have hu : (0 : Rat) < 2 ^ (Int.log 2 |x| + 1 - p) := zpow_pos (by norm_num) _
    have hlog : (2 : Rat) ^ Int.log 2 |x| ≤ |x| := by
      have := Int.zpow_log_le_self (b := 2) (r := |x|) (by decide) (abs_pos.2 h)
      exact_mod_cast this
    generalize hg : (2 : Rat) ^ (Int.log 2 |x| + 1 - p) = u at *
    have e1 : (round (x / u) : Rat) * u - x = (round (x / u) - x / u) * u := by field_simp
    rw [e1, abs_mul, abs_of_pos hu, abs_sub_comm]
    have h1 := abs_sub_round (x / u)
    have hu2 : u / 2 = 2 ^ Int.log 2 |x| / 2 ^ p := by
      rw [← hg, zpow_sub₀ (by norm_num), zpow_add₀ (by norm_num), zpow_natCast]
      ring
    calc |x / u - round (x / u)| * u ≤ 1 / 2 * u := mul_le_mul_of_nonneg_right h1 hu.le
      _ = 2 ^ Int.log 2 |x| / 2 ^ p := by rw [← hu2]; ring
      _ ≤ |x| / 2 ^ p := div_le_div_of_nonneg_right hlog (by positivity)

/-- There is a nearest rounding, of every precision. -/
theorem roundTo_nearest (hp : 1 ≤ p) : Nearest p (roundTo p) := by
  constructor
  · intro x
    unfold roundTo
    split
    · exact Binary.zero p
    · rename_i h
      have hu : (0 : Rat) < 2 ^ (Int.log 2 |x| + 1 - p) := zpow_pos (by norm_num) _
      have hlog : |x| < (2 : Rat) ^ (Int.log 2 |x| + 1) := by
        have := Int.lt_zpow_succ_log_self (b := 2) (by decide) |x|
        exact_mod_cast this
      have hx : |x / 2 ^ (Int.log 2 |x| + 1 - p)| < 2 ^ p := by
        rw [abs_div, abs_of_pos hu, div_lt_iff₀ hu, ← zpow_natCast, ← zpow_add₀ (by norm_num)]
        rw [show (p : Int) + (Int.log 2 |x| + 1 - p) = Int.log 2 |x| + 1 by ring]
        exact hlog
      have hr : |round (x / 2 ^ (Int.log 2 |x| + 1 - p))| ≤ 2 ^ p := by
        generalize x / 2 ^ (Int.log 2 |x| + 1 - p) = y at hx
        have h1 := abs_sub_round y
        have h2 : |(round y : Rat)| < 2 ^ p + 1 := by
          have := abs_sub_abs_le_abs_sub (round y : Rat) y
          rw [abs_sub_comm] at h1
          linarith
        have h3 : |round y| < 2 ^ p + 1 := by
          have : ((|round y| : Int) : Rat) < ((2 ^ p + 1 : Int) : Rat) := by push_cast; exact h2
          exact_mod_cast this
        omega
      rcases lt_or_eq_of_le hr with hr | hr
      · exact ⟨_, _, hr, rfl⟩
      · have hp2 : (1 : Int) < 2 ^ p := one_lt_pow₀ (by norm_num) (by omega)
        have hval : (2 : Rat) ^ p * 2 ^ (Int.log 2 |x| + 1 - p) = 2 ^ (Int.log 2 |x| + 1) := by
          rw [← zpow_natCast, ← zpow_add₀ (by norm_num)]
          congr 1
          ring
        rcases abs_eq (by positivity) |>.1 hr with hr | hr
        · refine ⟨1, Int.log 2 |x| + 1, by simpa using hp2, ?_⟩
          rw [hr]; push_cast; rw [hval, one_mul]
        · refine ⟨-1, Int.log 2 |x| + 1, by simpa using hp2, ?_⟩
          rw [hr]; push_cast; rw [neg_mul, hval]; ring
  · intro x y hy
    unfold roundTo
    split
    · rename_i h; subst h; simp
    · rename_i h
      have hu : (0 : Rat) < 2 ^ (Int.log 2 |x| + 1 - p) := zpow_pos (by norm_num) _
      have hlog : (2 : Rat) ^ Int.log 2 |x| ≤ |x| := by
        have := Int.zpow_log_le_self (b := 2) (r := |x|) (by decide) (abs_pos.2 h)
        exact_mod_cast this
      -- nearest among the multiples of the last bit
      have key : ∀ z : Int, |(round (x / 2 ^ (Int.log 2 |x| + 1 - p)) : Rat) * 2 ^ (Int.log 2 |x| + 1 - p) - x| ≤
          |(z : Rat) * 2 ^ (Int.log 2 |x| + 1 - p) - x| := by
        intro z
        generalize (2 : Rat) ^ (Int.log 2 |x| + 1 - p) = u at hu
        have e : ∀ v : Rat, |v * u - x| = |x / u - v| * u := by
          intro v
          rw [abs_sub_comm (x / u)]
          have : v * u - x = (v - x / u) * u := by field_simp
          rw [this, abs_mul, abs_of_pos hu]
        rw [e, e]
        exact mul_le_mul_of_nonneg_right (round_le (x / u) z) hu.le
      obtain ⟨m, k, hm, rfl⟩ := hy
      have hk0 : (0 : Rat) < 2 ^ k := zpow_pos (by norm_num) _
      by_cases hbig : (2 : Rat) ^ Int.log 2 |x| ≤ |(m : Rat) * 2 ^ k|
      · have hlt : |(m : Rat) * 2 ^ k| < 2 ^ ((p : Int) + k) := by
          rw [abs_mul, abs_of_pos hk0, zpow_add₀ (by norm_num), zpow_natCast]
          refine mul_lt_mul_of_pos_right ?_ hk0
          exact_mod_cast hm
        have hpk : Int.log 2 |x| < (p : Int) + k :=
          (zpow_lt_zpow_iff_right₀ (by norm_num)).1 (lt_of_le_of_lt hbig hlt)
        have := key (m * 2 ^ (k - (Int.log 2 |x| + 1 - p)).toNat)
        refine this.trans (le_of_eq ?_)
        congr 2
        push_cast
        rw [mul_assoc, ← zpow_natCast, ← zpow_add₀ (by norm_num)]
        congr 2
        omega
      · push Not at hbig
        have hz : ∀ s : Rat, s * 2 ^ (p - 1) * 2 ^ (Int.log 2 |x| + 1 - p) = s * 2 ^ Int.log 2 |x| := by
          intro s
          rw [mul_assoc, ← zpow_natCast, ← zpow_add₀ (by norm_num)]
          congr 2
          omega
        have htri : |x| - |(m : Rat) * 2 ^ k| ≤ |(m : Rat) * 2 ^ k - x| := by
          rw [abs_sub_comm]
          exact abs_sub_abs_le_abs_sub _ _
        rcases le_total 0 x with hx | hx
        · have h1 := key (1 * 2 ^ (p - 1))
          push_cast at h1
          rw [hz 1, one_mul] at h1
          refine h1.trans (le_trans ?_ htri)
          rw [abs_of_nonneg hx] at hlog hbig ⊢
          rw [abs_of_nonpos (by linarith)]
          linarith
        · have h1 := key (-1 * 2 ^ (p - 1))
          push_cast at h1
          rw [hz (-1)] at h1
          refine h1.trans (le_trans ?_ htri)
          rw [abs_of_nonpos hx] at hlog hbig ⊢
          rw [abs_of_nonneg (by linarith)]
          linarith

/-- The relative error of a nearest rounding. -/
theorem nearest_error (hp : 1 ≤ p) (h : Nearest p rnd) (x : Rat) : |rnd x - x| ≤ |x| / 2 ^ p :=
  (h.nearest x _ ((roundTo_nearest hp).binary x)).trans (roundTo_error p x)

/-! ### Sums -/

theorem roundedSums_length (ws : List Rat) : (roundedSums rnd ws).length = ws.length := by
  cases ws <;> simp [roundedSums]

theorem accumulateFrom_floats (hp : 1 ≤ p) (h : Nearest p rnd) {ws : List Rat} (hw : ∀ w ∈ ws, Binary p w) {s : Rat}
    (hs : Binary p s) : s :: accumulateFrom (floats p hp rnd h) s ws = ws.scanl (fun sum v => rnd (sum + v)) s := by
  induction ws generalizing s with
  | nil => rfl
  | cons w ws ih =>
    have e : (floats p hp rnd h).plus s w = rnd (s + w) := by
      simp only [floats]
      rw [if_pos ⟨hs, hw w (by simp)⟩]
    simp only [accumulateFrom, List.scanl_cons, e]
    rw [ih (fun v hv => hw v (by simp [hv])) (h.binary _)]

/-- The sums the code computes. -/
theorem accumulate_floats (hp : 1 ≤ p) (h : Nearest p rnd) {ws : List Rat} (hw : ∀ w ∈ ws, Binary p w) :
    accumulate (floats p hp rnd h) ws = roundedSums rnd ws := by
  cases ws with
  | nil => rfl
  | cons w ws => exact accumulateFrom_floats hp h (fun v hv => hw v (by simp [hv])) (hw w (by simp))

theorem sums_binary (h : Nearest p rnd) {ws : List Rat} (hw : ∀ w ∈ ws, Binary p w) :
    ∀ x ∈ roundedSums rnd ws, Binary p x := by
  cases ws with
  | nil => simp [roundedSums]
  | cons w ws =>
    have : ∀ (ws : List Rat) (s : Rat), Binary p s → ∀ x ∈ ws.scanl (fun sum v => rnd (sum + v)) s, Binary p x := by
      intro ws
      induction ws with
      | nil => intro s hs x hx; simp at hx; exact hx ▸ hs
      | cons v ws ih =>
        intro s hs x hx
        rw [List.scanl_cons] at hx
        rcases List.mem_cons.1 hx with rfl | hx
        · exact hs
        · exact ih _ (h.binary _) x hx
    exact this ws w (hw w (by simp))

theorem last_binary (h : Nearest p rnd) {ws : List Rat} (hw : ∀ w ∈ ws, Binary p w) :
    Binary p ((roundedSums rnd ws).getLastD 0) := by
  rw [List.getLastD_eq_getLast?]
  cases hl : (roundedSums rnd ws).getLast? with
  | none => exact Binary.zero p
  | some x => exact sums_binary h hw x (List.mem_of_getLast? hl)

/-! ### Draws -/

theorem drawsOption_unique {ws : List Rat} {q : Rat} {i j : Nat} (hi : DrawsOption rnd ws q i)
    (hj : DrawsOption rnd ws q j) : i = j := by
  obtain ⟨a1, a2, a3⟩ := hi
  obtain ⟨b1, b2, b3⟩ := hj
  rcases Nat.lt_trichotomy i j with h | h | h
  · exact absurd (b1 i h) (not_le.2 a3)
  · exact h
  · exact absurd (a1 j h) (not_le.2 b3)

/-- **C86.**  The option drawn with floating point weights, none negative and one positive, and a floating point random
number of [0, 1): computed as the code does, it is the first one whose rounded running sum exceeds the rounded product
of the random number and the rounded total.  There is always exactly one, and its weight is positive. -/
theorem float_draw (hp : 1 ≤ p) (h : Nearest p rnd) (ws : List Rat) (hb : ∀ w ∈ ws, Binary p w)
    (hw : ∀ w ∈ ws, 0 ≤ w) (hpos : ∃ w ∈ ws, 0 < w) (q : Rat) (hq : Binary p q) (h0 : 0 ≤ q) (h1 : q < 1) (i : Nat) :
    (weightedIndex (floats p hp rnd h) (accumulate (floats p hp rnd h) ws) q = i ↔ DrawsOption rnd ws q i) ∧
    (DrawsOption rnd ws q i → ∃ w, ws[i]? = some w ∧ 0 < w) ∧ ∃ j, DrawsOption rnd ws q j := by
  have hd : DrawsOption rnd ws q (weightedIndex (floats p hp rnd h) (accumulate (floats p hp rnd h) ws) q) := by
    have ht := accumulate_last_pos (floats p hp rnd h) hw hpos
    have hx1 := (floats p hp rnd h).times_lt q _ h0 h1 ht
    obtain ⟨hi, -⟩ := weightedIndex_pos (floats p hp rnd h) hw hpos h1 h0
    have hlen := accumulate_length (floats p hp rnd h) ws
    obtain ⟨-, a2, a3, a4⟩ := bisectGo_spec (accumulate (floats p hp rnd h) ws)
      ((floats p hp rnd h).times q ((accumulate (floats p hp rnd h) ws).getLastD 0))
      ((accumulate (floats p hp rnd h) ws).length - 1 - 0) 0 ((accumulate (floats p hp rnd h) ws).length - 1)
      (by omega) (by omega) (by
        intro i j hij hj
        rw [hlen] at hj
        exact accumulate_mono _ hw hij (by omega))
    change weightedIndex (floats p hp rnd h) (accumulate (floats p hp rnd h) ws) q ≤ _ at a2
    change ∀ j, _ → j < weightedIndex (floats p hp rnd h) (accumulate (floats p hp rnd h) ws) q → _ at a3
    change weightedIndex (floats p hp rnd h) (accumulate (floats p hp rnd h) ws) q < _ → _ <
      (accumulate (floats p hp rnd h) ws).getD
        (weightedIndex (floats p hp rnd h) (accumulate (floats p hp rnd h) ws) q) 0 at a4
    generalize weightedIndex (floats p hp rnd h) (accumulate (floats p hp rnd h) ws) q = i at *
    have hlast := accumulate_last (floats p hp rnd h) ws
    rw [accumulate_floats hp h hb] at *
    have e : (floats p hp rnd h).times q ((roundedSums rnd ws).getLastD 0) =
        rnd (q * (roundedSums rnd ws).getLastD 0) := by
      simp only [floats]
      rw [if_pos ⟨hq, last_binary h hb⟩]
    rw [e] at a3 a4 hx1
    refine ⟨fun j hj => a3 j (by omega) hj, hi, ?_⟩
    by_cases he : i < (roundedSums rnd ws).length - 1
    · exact a4 he
    · have : i = ws.length - 1 := by omega
      rw [this]
      rw [← hlast]
      exact hx1
  refine ⟨⟨fun e => e ▸ hd, fun e => drawsOption_unique hd e⟩, fun e => ?_, _, hd⟩
  rw [← drawsOption_unique hd e]
  obtain ⟨hi, hx⟩ := weightedIndex_pos (floats p hp rnd h) hw hpos h1 h0
  exact ⟨_, List.getElem?_eq_getElem hi, hx⟩

/-! ### Shares -/

theorem getD_nonneg' {ws : List Rat} (hw : ∀ x ∈ ws, 0 ≤ x) (i : Nat) : 0 ≤ ws.getD i 0 := by
  rw [List.getD_eq_getElem?_getD]
  cases h : ws[i]? with
  | none => simp
  | some x => exact hw x (List.mem_of_getElem? h)

theorem sum_take_succ (ws : List Rat) (i : Nat) (hi : i < ws.length) :
    (ws.take (i + 1)).sum = (ws.take i).sum + ws.getD i 0 := by
  rw [← List.take_concat_get' ws i hi, List.sum_append, List.getD_eq_getElem?_getD, List.getElem?_eq_getElem hi]
  simp

/-- How far a rounded running sum is from the sum. -/
theorem sums_error (hp : 1 ≤ p) (h : Nearest p rnd) {ws : List Rat} (hb : ∀ w ∈ ws, Binary p w)
    (hw : ∀ w ∈ ws, 0 ≤ w) (i : Nat) (hi : i < ws.length) :
    (ws.take (i + 1)).sum * (1 - 1 / 2 ^ p) ^ i ≤ (roundedSums rnd ws).getD i 0 ∧
    (roundedSums rnd ws).getD i 0 ≤ (ws.take (i + 1)).sum * (1 + 1 / 2 ^ p) ^ i := by
  have he0 : (0 : Rat) < 1 / 2 ^ p := by positivity
  have he1 : (1 : Rat) / 2 ^ p ≤ 1 := by
    rw [div_le_one (by positivity)]
    exact one_le_pow₀ (by norm_num)
  have hacc := accumulate_floats hp h hb
  induction i with
  | zero =>
    rw [← hacc, accumulate_head]
    rw [sum_take_succ ws 0 hi]
    simp
  | succ i ih =>
    obtain ⟨l, u⟩ := ih (by omega)
    have hn : 0 ≤ (roundedSums rnd ws).getD i 0 := by
      rw [← hacc]; exact accumulate_nonneg _ hw (by omega)
    have hv := getD_nonneg' hw (i + 1)
    have hS : (roundedSums rnd ws).getD (i + 1) 0 = rnd ((roundedSums rnd ws).getD i 0 + ws.getD (i + 1) 0) := by
      have h1 := accumulate_succ (floats p hp rnd h) ws i hi
      rw [hacc] at h1
      rw [h1]
      simp only [floats]
      rw [if_pos]
      constructor
      · refine sums_binary h hb _ ?_
        rw [List.getD_eq_getElem?_getD, List.getElem?_eq_getElem (by rw [roundedSums_length]; omega)]
        exact List.getElem_mem _
      · refine hb _ ?_
        rw [List.getD_eq_getElem?_getD, List.getElem?_eq_getElem hi]
        exact List.getElem_mem _
    have herr := nearest_error hp h ((roundedSums rnd ws).getD i 0 + ws.getD (i + 1) 0)
    rw [← hS, abs_of_nonneg (by linarith : 0 ≤ (roundedSums rnd ws).getD i 0 + ws.getD (i + 1) 0), abs_le] at herr
    rw [sum_take_succ ws (i + 1) hi]
    generalize (roundedSums rnd ws).getD i 0 = S at *
    generalize ws.getD (i + 1) 0 = v at *
    generalize (roundedSums rnd ws).getD (i + 1) 0 = S' at *
    generalize (ws.take (i + 1)).sum = T at *
    rw [div_eq_mul_one_div] at herr
    generalize (1 : Rat) / 2 ^ p = e at *
    have hlo : (T + v) * (1 - e) ^ i ≤ S + v := by
      have : v * (1 - e) ^ i ≤ v := by
        have := pow_le_one₀ (n := i) (by linarith : 0 ≤ 1 - e) (by linarith)
        nlinarith
      linarith [add_mul T v ((1 - e) ^ i)]
    have hhi : S + v ≤ (T + v) * (1 + e) ^ i := by
      have : v ≤ v * (1 + e) ^ i := by
        have := one_le_pow₀ (n := i) (by linarith : 1 ≤ 1 + e)
        nlinarith
      linarith [add_mul T v ((1 + e) ^ i)]
    constructor
    · calc (T + v) * (1 - e) ^ (i + 1) = (T + v) * (1 - e) ^ i * (1 - e) := by rw [pow_succ]; ring
        _ ≤ (S + v) * (1 - e) := mul_le_mul_of_nonneg_right hlo (by linarith)
        _ ≤ S' := by linarith [herr.1]
    · calc S' ≤ (S + v) * (1 + e) := by linarith [herr.2]
        _ ≤ (T + v) * (1 + e) ^ i * (1 + e) := mul_le_mul_of_nonneg_right hhi (by linarith)
        _ = (T + v) * (1 + e) ^ (i + 1) := by rw [pow_succ]; ring

/-- **C86.**  How far rounding can shift the shares of the options: if `q` draws option `i` of `n`, then `q` times the
total lies, up to a factor of `((1 + 2⁻ᵖ) / (1 - 2⁻ᵖ))ⁿ`, between the sum of the weights before option `i` and the sum
of those up to option `i`, compare `draw_iff`. -/
theorem float_share (hp : 1 ≤ p) (h : Nearest p rnd) (ws : List Rat) (hb : ∀ w ∈ ws, Binary p w)
    (hw : ∀ w ∈ ws, 0 ≤ w) (q : Rat) (h0 : 0 ≤ q) (i : Nat) (hd : DrawsOption rnd ws q i) :
    (ws.take i).sum * (1 - 1 / 2 ^ p) ^ ws.length ≤ q * ws.sum * (1 + 1 / 2 ^ p) ^ ws.length ∧
    q * ws.sum * (1 - 1 / 2 ^ p) ^ ws.length < (ws.take (i + 1)).sum * (1 + 1 / 2 ^ p) ^ ws.length := by
  obtain ⟨d1, d2, d3⟩ := hd
  have he0 : (0 : Rat) < 1 / 2 ^ p := by positivity
  have he1 : (1 : Rat) / 2 ^ p ≤ 1 := by
    rw [div_le_one (by positivity)]
    exact one_le_pow₀ (by norm_num)
  have hlast : (roundedSums rnd ws).getLastD 0 = (roundedSums rnd ws).getD (ws.length - 1) 0 := by
    have := accumulate_last (floats p hp rnd h) ws
    rwa [accumulate_floats hp h hb] at this
  obtain ⟨t1, t2⟩ := sums_error hp h hb hw (ws.length - 1) (by omega)
  rw [← hlast, Nat.sub_add_cancel (by omega), List.take_length] at t1 t2
  have hT0 : 0 ≤ (roundedSums rnd ws).getLastD 0 := by
    rw [hlast, ← accumulate_floats hp h hb]; exact accumulate_nonneg _ hw (by omega)
  have herr := nearest_error hp h (q * (roundedSums rnd ws).getLastD 0)
  rw [abs_of_nonneg (mul_nonneg h0 hT0), abs_le, div_eq_mul_one_div] at herr
  have hsum : 0 ≤ ws.sum := List.sum_nonneg hw
  have hpowlo : ∀ m, m ≤ ws.length → (1 - 1 / 2 ^ p : Rat) ^ ws.length ≤ (1 - 1 / 2 ^ p) ^ m := fun m hm =>
    pow_le_pow_of_le_one (by linarith) (by linarith) hm
  have hpowhi : ∀ m, m ≤ ws.length → (1 + 1 / 2 ^ p : Rat) ^ m ≤ (1 + 1 / 2 ^ p) ^ ws.length := fun m hm =>
    pow_le_pow_right₀ (by linarith) hm
  generalize hX : rnd (q * (roundedSums rnd ws).getLastD 0) = X at *
  generalize (roundedSums rnd ws).getLastD 0 = T at *
  have hs0 : ∀ j, 0 ≤ (ws.take j).sum := fun j => List.sum_nonneg fun x hx => hw x (List.mem_of_mem_take hx)
  obtain ⟨n, hn⟩ : ∃ n, ws.length = n + 1 := ⟨ws.length - 1, by omega⟩
  constructor
  · have hXu : X ≤ q * ws.sum * (1 + 1 / 2 ^ p) ^ ws.length := by
      calc X ≤ q * T * (1 + 1 / 2 ^ p) := by linarith [herr.2]
        _ ≤ q * (ws.sum * (1 + 1 / 2 ^ p) ^ (ws.length - 1)) * (1 + 1 / 2 ^ p) :=
          mul_le_mul_of_nonneg_right (mul_le_mul_of_nonneg_left t2 h0) (by linarith)
        _ = _ := by rw [hn, Nat.add_sub_cancel, pow_succ]; ring
    cases i with
    | zero =>
      simp only [List.take_zero, List.sum_nil, zero_mul]
      exact mul_nonneg (mul_nonneg h0 hsum) (by positivity)
    | succ i =>
      have h1 := (sums_error hp h hb hw i (by omega)).1
      have h2 := d1 i (by omega)
      refine le_trans (le_trans (mul_le_mul_of_nonneg_left (hpowlo i (by omega)) (hs0 _)) h1) (h2.trans hXu)
  · have hXl : q * ws.sum * (1 - 1 / 2 ^ p) ^ ws.length ≤ X := by
      calc q * ws.sum * (1 - 1 / 2 ^ p) ^ ws.length
          = q * (ws.sum * (1 - 1 / 2 ^ p) ^ (ws.length - 1)) * (1 - 1 / 2 ^ p) := by
            rw [hn, Nat.add_sub_cancel, pow_succ]; ring
        _ ≤ q * T * (1 - 1 / 2 ^ p) :=
          mul_le_mul_of_nonneg_right (mul_le_mul_of_nonneg_left t1 h0) (by linarith)
        _ ≤ X := by linarith [herr.1]
    have h1 := (sums_error hp h hb hw i d2).2
    exact lt_of_le_of_lt hXl (lt_of_lt_of_le d3 (h1.trans
      (mul_le_mul_of_nonneg_left (hpowhi i (by omega)) (hs0 _))))

/-- The number after 1. -/
theorem Binary_gt_one (hp : 1 ≤ p) {y : Rat} (hy : Binary p y) (h1 : 1 < y) : 1 + 2 / 2 ^ p ≤ y := by
  have hp2 : (2 : Rat) / 2 ^ p ≤ 1 := by
    rw [div_le_one (by positivity)]
    calc (2 : Rat) = 2 ^ 1 := by norm_num
      _ ≤ 2 ^ p := pow_le_pow_right₀ (by norm_num) hp
  by_cases h2 : 2 ≤ y
  · linarith
  · push Not at h2
    obtain ⟨m, e, hm1, hm2, rfl⟩ := hy.normal hp (by linarith)
    have h2e : (0 : Rat) < 2 ^ e := zpow_pos (by norm_num) e
    have hm1' : (2 : Rat) ^ (p - 1) ≤ m := by exact_mod_cast hm1
    have hm2' : (m : Rat) < 2 ^ p := by exact_mod_cast hm2
    have e1 : (p : Int) - 1 + e < 1 := by
      have : (2 : Rat) ^ ((p : Int) - 1 + e) < 2 ^ (1 : Int) := by
        rw [zpow_one, zpow_add₀ (by norm_num), show (p : Int) - 1 = ((p - 1 : Nat) : Int) by omega, zpow_natCast]
        exact lt_of_le_of_lt (mul_le_mul_of_nonneg_right hm1' h2e.le) h2
      exact (zpow_lt_zpow_iff_right₀ (by norm_num)).1 this
    have e2 : 0 < (p : Int) + e := by
      have : (2 : Rat) ^ (0 : Int) < 2 ^ ((p : Int) + e) := by
        rw [zpow_zero, zpow_add₀ (by norm_num), zpow_natCast]
        exact h1.trans (mul_lt_mul_of_pos_right hm2' h2e)
      exact (zpow_lt_zpow_iff_right₀ (by norm_num)).1 this
    have he : e = -((p - 1 : Nat) : Int) := by omega
    have hk : (0 : Rat) < 2 ^ (p - 1) := by positivity
    have hpow : (2 : Rat) ^ p = 2 * 2 ^ (p - 1) := by rw [← pow_succ']; congr 1; omega
    rw [he, zpow_neg, zpow_natCast, ← div_eq_mul_inv] at h1 ⊢
    rw [one_lt_div hk] at h1
    have hm3 : (2 : Int) ^ (p - 1) + 1 ≤ m := by
      have : (2 : Int) ^ (p - 1) < m := by exact_mod_cast h1
      omega
    have hm3' : (2 : Rat) ^ (p - 1) + 1 ≤ m := by exact_mod_cast hm3
    rw [le_div_iff₀ hk, hpow]
    calc (1 + 2 / (2 * 2 ^ (p - 1))) * (2 : Rat) ^ (p - 1) = 2 ^ (p - 1) + 1 := by field_simp
      _ ≤ m := hm3'

/-- **C86.**  What rounding does change: an option of positive weight may never be drawn.  Next to an option of weight 1,
one of a weight under `2⁻ᵖ` adds nothing to the running sum. -/
theorem tiny_weight_never_drawn (hp : 1 ≤ p) (h : Nearest p rnd) (w : Rat) (hw : w < 1 / 2 ^ p)
    (h0 : 0 < w) (q : Rat) : ¬ DrawsOption rnd [1, w] q 1 := by
  have hb1 : Binary p 1 := ⟨1, 0, by simpa using one_lt_pow₀ (by norm_num : (1 : Int) < 2) (by omega : p ≠ 0), by simp⟩
  have hr : rnd (1 + w) = 1 := by
    have h1 := h.le hb1 (by linarith : (1 : Rat) ≤ 1 + w)
    have h2 := h.nearest (1 + w) 1 hb1
    rw [show (1 : Rat) - (1 + w) = -w by ring, abs_neg, abs_of_pos h0] at h2
    have h3 := (abs_le.1 h2).2
    by_contra hne
    have h4 := Binary_gt_one hp (h.binary (1 + w)) (lt_of_le_of_ne h1 (Ne.symm hne))
    have : (2 : Rat) / 2 ^ p = 2 * (1 / 2 ^ p) := by ring
    linarith
  rintro ⟨d1, -, d3⟩
  have e : roundedSums rnd [1, w] = [1, 1] := by simp [roundedSums, hr]
  have h1 := d1 0 (by omega)
  rw [e] at h1 d3
  simp only [List.getD_cons_zero, List.getD_cons_succ] at h1 d3
  linarith

/-- With 53 bits and the weights 1 and 3, the random number 1/2 draws the second option: the hypotheses of `float_draw`
are met. -/
example : DrawsOption (roundTo 53) [1, 3] (1 / 2) 1 ∧
    (∀ w ∈ [(1 : Rat), 3], Binary 53 w) ∧ Binary 53 (1 / 2) ∧ Nearest 53 (roundTo 53) := by
  have b : ∀ n : Int, |n| < 2 ^ 53 → Binary 53 n := fun n hn => ⟨n, 0, hn, by simp⟩
  have b1 : Binary 53 1 := by simpa using b 1 (by norm_num)
  have b2 : Binary 53 2 := by simpa using b 2 (by norm_num)
  have b3 : Binary 53 3 := by simpa using b 3 (by norm_num)
  have b4 : Binary 53 4 := by simpa using b 4 (by norm_num)
  have hn : Nearest 53 (roundTo 53) := roundTo_nearest (by decide)
  have e : roundedSums (roundTo 53) [1, 3] = [1, 4] := by
    simp only [roundedSums, List.scanl_cons, List.scanl_nil]
    rw [show (1 : Rat) + 3 = 4 by norm_num, hn.fix b4]
  refine ⟨?_, ?_, ⟨1, -1, by norm_num, by norm_num⟩, hn⟩
  · have hr : roundTo 53 (1 / 2 * 4) = 2 := by rw [show (1 : Rat) / 2 * 4 = 2 by norm_num, hn.fix b2]
    refine ⟨?_, by simp, ?_⟩
    · intro j hj
      rw [show j = 0 by omega, e]
      simp only [List.getLastD_cons, List.getLastD_nil, hr, List.getD_cons_zero]
      norm_num
    · rw [e]
      simp only [List.getLastD_cons, List.getLastD_nil, hr, List.getD_cons_zero, List.getD_cons_succ]
      norm_num
  · intro w hw
    simp only [List.mem_cons, List.not_mem_nil, or_false] at hw
    rcases hw with rfl | rfl
    · exact b1
    · exact b3

/-- Non-vacuity of `tiny_weight_never_drawn`: the weight 2⁻⁶⁰. -/
example : (1 : Rat) / 2 ^ 60 < 1 / 2 ^ 53 ∧ Binary 53 (1 / 2 ^ 60) := by
  refine ⟨by norm_num, 1, -60, by norm_num, by norm_num⟩

end Verif.Props
