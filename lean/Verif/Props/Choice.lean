import Verif.Proofs.Weighted
import Mathlib.Algebra.Order.Field.Basic
import Verif.Spec.Demo
/-!
# C09, C10, C37, C38: random choice and weights
-/

namespace Verif.Props
open Verif
variable {W α : Type}

/-! ## C10, weighted draws -/

/-- **C10** Which option a draw returns, when weights are added and multiplied exactly: with non-negative weights `ws` whose total is positive, the
random number `q` selects option `i` exactly if `q · total` lies in `[w₀+…+wᵢ₋₁, w₀+…+wᵢ)`.  The
interval has length `wᵢ`, so the share of option `i` is exactly `wᵢ / total`. -/
theorem draw_iff (ws : List Rat) (hw : ∀ x ∈ ws, 0 ≤ x) (hpos : 0 < ws.sum) (q : Rat) (h0 : 0 ≤ q)
    (h1 : q < 1) (i : Nat) (hi : i < ws.length) :
    weightedIndex .exact (accumulate .exact ws) q = i ↔
      (ws.take i).sum ≤ q * ws.sum ∧ q * ws.sum < (ws.take i).sum + ws[i] := by
  have hsum : ∀ j, (hj : j < ws.length) → (ws.take (j + 1)).sum = (ws.take j).sum + ws[j] := by
    intro j hj
    rw [← List.take_concat_get' ws j hj, List.sum_append]
    simp
  obtain ⟨a1, a2, a3⟩ := weightedIndex_spec hw hpos h1 h0
  rw [← hsum i hi]
  constructor
  · rintro rfl; exact ⟨a2, a3⟩
  · rintro ⟨b1, b2⟩
    rcases Nat.lt_trichotomy (weightedIndex .exact (accumulate .exact ws) q) i with h | h | h
    · have := sum_take_mono hw (i := weightedIndex .exact (accumulate .exact ws) q + 1) (j := i) (by omega)
      linarith
    · exact h
    · have := sum_take_mono hw (i := i + 1) (j := weightedIndex .exact (accumulate .exact ws) q) (by omega)
      linarith

/-- **C10** A draw always returns an option, and never one of weight zero, however the additions and the
multiplication are rounded (`A`). -/
theorem draw_positive (A : Arith) (ws : List Rat) (hw : ∀ x ∈ ws, 0 ≤ x) (hpos : 0 < ws.sum) (q : Rat)
    (h0 : 0 ≤ q) (h1 : q < 1) :
    ∃ h : weightedIndex A (accumulate A ws) q < ws.length, 0 < ws[weightedIndex A (accumulate A ws) q] :=
  weightedIndex_pos A hw (exists_pos_of_sum hpos) h1 h0

/-- **C10** Every option of positive weight is returned for some random number. -/
theorem draw_reaches (ws : List Rat) (hw : ∀ x ∈ ws, 0 ≤ x) (i : Nat) (hi : i < ws.length)
    (hpos : 0 < ws[i]) : ∃ q : Rat, 0 ≤ q ∧ q < 1 ∧ weightedIndex .exact (accumulate .exact ws) q = i := by
  have hsum : (ws.take (i + 1)).sum = (ws.take i).sum + ws[i] := by
    rw [← List.take_concat_get' ws i hi, List.sum_append]; simp
  have hle := sum_take_le hw (i + 1)
  have h0 : 0 ≤ (ws.take i).sum := List.sum_nonneg (fun x hx => hw x (List.mem_of_mem_take hx))
  have htot : 0 < ws.sum := by linarith
  have hq0 : 0 ≤ (ws.take i).sum / ws.sum := div_nonneg h0 htot.le
  have hq1 : (ws.take i).sum / ws.sum < 1 := by rw [div_lt_one htot]; linarith
  refine ⟨(ws.take i).sum / ws.sum, hq0, hq1, ?_⟩
  rw [draw_iff ws hw htot _ hq0 hq1 i hi, div_mul_cancel₀ _ htot.ne']
  exact ⟨le_refl _, by linarith⟩

example : weightedIndex .exact (accumulate .exact [1, 0, 3]) (1 / 2) = 2 := by decide +kernel

/-- **C10** `random.choices` as used for wildcard values: every value drawn belongs to an item of
positive weight. -/
theorem choices_positive (r : Rng W) (pop : List α) (ws : List Rat) (hlen : ws.length = pop.length)
    (hw : ∀ x ∈ ws, 0 ≤ x) (hpos : 0 < ws.sum) (k : Nat) (w : W) :
    ∃ vs w', r.choicesCum pop (accumulate r.arith ws) k w = .ok vs w' ∧ vs.length = k ∧
      ∀ v ∈ vs, ∃ i, ∃ h : i < ws.length, pop[i]? = some v ∧ 0 < ws[i] := by
  have hne : ws ≠ [] := by rintro rfl; simp at hpos
  have c1 : ¬ (accumulate r.arith ws).length ≠ pop.length := by rw [accumulate_length]; simpa using hlen
  have c2 : ¬ (accumulate r.arith ws).isEmpty = true := by
    rw [List.isEmpty_iff, ← List.length_eq_zero_iff, accumulate_length, List.length_eq_zero_iff]
    exact hne
  have c3 : ¬ (accumulate r.arith ws).getLastD 0 ≤ 0 :=
    not_le.2 (accumulate_last_pos r.arith hw (exists_pos_of_sum hpos))
  induction k generalizing w with
  | zero =>
    refine ⟨[], w, ?_, rfl, by simp⟩
    simp only [Rng.choicesCum]
    rw [if_neg c1, if_neg c2, if_neg c3]
  | succ k ih =>
    obtain ⟨hi, hp⟩ := draw_positive r.arith ws hw hpos (r.unit w).1.val (r.unit w).1.2.1 (r.unit w).1.2.2
    have hget : pop[weightedIndex r.arith (accumulate r.arith ws) (r.unit w).1.val]? =
        some (pop[weightedIndex r.arith (accumulate r.arith ws) (r.unit w).1.val]'(by omega)) :=
      List.getElem?_eq_getElem _
    obtain ⟨vs, w', h1, h2, h3⟩ := ih (r.unit w).2
    refine ⟨pop[weightedIndex r.arith (accumulate r.arith ws) (r.unit w).1.val]'(by omega) :: vs, w', ?_, by simp [h2], ?_⟩
    · simp only [Rng.choicesCum]
      rw [if_neg c1, if_neg c2, if_neg c3, hget]
      dsimp only
      rw [M.bind_of_ok h1]
      rfl
    · intro v hv
      rcases List.mem_cons.1 hv with rfl | hv
      · exact ⟨_, hi, hget, hp⟩
      · exact h3 v hv

/-- The exception, in a case: of the options a, b, c with weights 1, 0, 1, choosing two can
return b.  (`choose_without_replacement` removes the first weight that is *equal* to the weight of
the chosen option, so after c is chosen the weights of a and b are 0 and 1.) -/
theorem zero_weight_second_draw :
    ∃ (r : Rng Nat) (w w' : Nat), chooseWithoutReplacement r [c!"a", c!"b", c!"c"] [1, 0, 1] 2 w =
      .ok [c!"c", c!"b"] w' := by
  refine ⟨⟨.exact, fun n w => (0, w), fun w => (⟨1 / 2, by decide +kernel, by decide +kernel⟩, w)⟩, 0, 0, ?_⟩
  decide +kernel

/-- **C10** The first option chosen by `choose_without_replacement` never has weight zero. -/
theorem first_choice_positive [DecidableEq α] (r : Rng W) (values : List α) (weights : List Rat)
    (k : Int) (hn : 2 ≤ values.length) (hw : ∀ x ∈ weights, 0 ≤ x) (hpos : 0 < weights.sum)
    (w w' : W) (sel : List α) (h : chooseWithoutReplacement r values weights k w = .ok sel w') :
    ∀ v, sel.head? = some v → ∃ i, ∃ hi : i < weights.length, values[i]? = some v ∧ 0 < weights[i] := by
  intro v hv
  unfold chooseWithoutReplacement at h
  have hwne : weights.isEmpty = false := by
    cases weights with
    | nil => simp at hpos
    | cons => rfl
  rw [hwne] at h
  simp only [Bool.false_eq_true, if_false] at h
  split at h
  · simp at h
  · split at h
    · simp at h
    · rename_i hlen
      match values, hn with
      | a :: b :: l, _ =>
        dsimp only at h
        generalize hk : k.toNat = kk at h
        cases kk with
        | zero =>
          simp only [chooseLoop, M.pure_eq, Res.ok.injEq] at h
          rw [← h.1] at hv; simp at hv
        | succ kk =>
          simp only [chooseLoop] at h
          obtain ⟨vs, w1, h1, h2, h3⟩ := choices_positive r (a :: b :: l) weights
            (by simpa using Eq.symm (not_not.1 hlen)) hw hpos 1 w
          rw [M.bind_of_ok h1] at h
          cases vs with
          | nil => simp at h2
          | cons x vs =>
            obtain ⟨rest, w2, h4, h5⟩ := M.bind_ok.1 h
            simp only [M.pure_eq, Res.ok.injEq] at h5
            rw [← h5.1] at hv
            simp only [List.head?_cons, Option.some.injEq] at hv
            subst hv
            exact h3 x (by simp)

theorem draw_of_ok {r : Rng W} {pop : List α} {ws : List Rat} {w w' : W} {c : α} {cs : List α}
    (hlen : ws.length = pop.length) (hw : ∀ x ∈ ws, 0 ≤ x)
    (h : r.choicesCum pop (accumulate r.arith ws) 1 w = .ok (c :: cs) w') :
    ∃ i, ∃ hi : i < ws.length, pop[i]? = some c ∧ 0 < ws[i] := by
  have hpos : 0 < ws.sum := by
    by_contra hn
    simp only [Rng.choicesCum] at h
    have ht : (accumulate r.arith ws).getLastD 0 ≤ 0 :=
      not_lt.1 fun h => hn ((sum_pos_iff hw).2 ((accumulate_last_pos_iff r.arith hw).1 h))
    split at h
    · simp at h
    · split at h
      · simp at h
      · simp at h
  obtain ⟨vs, w1, h1, h2, h3⟩ := choices_positive r pop ws hlen hw hpos 1 w
  rw [h1] at h
  simp only [Res.ok.injEq] at h
  exact h3 c (by rw [h.1]; simp)

/-- No other weight stands between two equal weights. -/
def Adjacent (ws : List Rat) : Prop := ∀ x y, [x, y, x].Sublist ws → x = y

theorem erase_adjacent_aux (a : Rat) (l : List Rat) (j : Nat) (h : Adjacent (a :: l)) (hj : l[j]? = some a) :
    a :: l.eraseIdx j = l := by
  induction j generalizing l with
  | zero =>
    cases l with
    | nil => simp at hj
    | cons b l => simp at hj; simp [hj]
  | succ j ih =>
    cases l with
    | nil => simp at hj
    | cons b l =>
      simp only [List.getElem?_cons_succ] at hj
      have hab : a = b := h a b (.cons_cons _ (.cons_cons _ (List.singleton_sublist.2 (List.mem_of_getElem? hj))))
      subst hab
      rw [List.eraseIdx_cons_succ, ih l (fun x y hs => h x y (hs.trans (List.sublist_cons_self _ _))) hj]

theorem erase_adjacent (ws : List Rat) (j : Nat) (x : Rat) (h : Adjacent ws) (hj : ws[j]? = some x) :
    ws.erase x = ws.eraseIdx j := by
  induction ws generalizing j with
  | nil => simp at hj
  | cons a l ih =>
    cases j with
    | zero => simp at hj; simp [hj]
    | succ j =>
      simp only [List.getElem?_cons_succ] at hj
      by_cases hax : a = x
      · subst hax
        rw [List.erase_cons_head, List.eraseIdx_cons_succ, erase_adjacent_aux a l j h hj]
      · rw [List.erase_cons_tail (by simpa using hax), List.eraseIdx_cons_succ,
          ih j (fun x y hs => h x y (hs.trans (List.sublist_cons_self _ _))) hj]

/-- **C10** If equal weights are adjacent (for example all equal, or sorted), no draw of a selection
returns an option of weight zero, however many are selected. -/
theorem choice_positive_adjacent [DecidableEq α] (r : Rng W) (values : List α) (weights : List Rat)
    (k : Int) (hn : 2 ≤ values.length) (hne : weights ≠ []) (hw : ∀ x ∈ weights, 0 ≤ x) (hadj : Adjacent weights)
    (w w' : W) (sel : List α) (h : chooseWithoutReplacement r values weights k w = .ok sel w') :
    ∀ v ∈ sel, ∃ i, ∃ hi : i < weights.length, values[i]? = some v ∧ 0 < weights[i] := by
  have loop : ∀ (n : Nat) (vs : List α) (ws : List Rat) (w w' : W) (sel : List α),
      ws.length = vs.length → (∀ x ∈ ws, 0 ≤ x) → Adjacent ws → chooseLoop r n vs ws w = .ok sel w' →
      ∀ v ∈ sel, ∃ i, ∃ hi : i < ws.length, vs[i]? = some v ∧ 0 < ws[i] := by
    intro n
    induction n with
    | zero =>
      intro vs ws w w' sel _ _ _ h
      simp only [chooseLoop, M.pure_eq, Res.ok.injEq] at h
      simp [← h.1]
    | succ n ih =>
      intro vs ws w w' sel hl hw ha h
      simp only [chooseLoop] at h
      obtain ⟨ch, w1, h1, h2⟩ := M.bind_ok.1 h
      cases ch with
      | nil => simp at h2
      | cons c cs =>
        obtain ⟨i, hi, hget, hp⟩ := draw_of_ok hl hw h1
        dsimp only at h2
        obtain ⟨rest, w2, h4, h5⟩ := M.bind_ok.1 h2
        simp only [M.pure_eq, Res.ok.injEq] at h5
        have hmem : c ∈ vs := List.mem_of_getElem? hget
        have hidx : vs.idxOf c < ws.length := by rw [hl]; exact List.idxOf_lt_length_iff.2 hmem
        have hwg : ws[vs.idxOf c]? = some (ws.getD (vs.idxOf c) 0) := by
          rw [List.getD_eq_getElem?_getD, List.getElem?_eq_getElem hidx]; rfl
        have e1 := erase_adjacent ws _ _ ha hwg
        have e2 : vs.erase c = vs.eraseIdx (vs.idxOf c) := List.erase_eq_eraseIdx_of_idxOf rfl
        rw [e1, e2] at h4
        have hsub : (ws.eraseIdx (vs.idxOf c)).Sublist ws := List.eraseIdx_sublist _ _
        intro v hv
        rw [← h5.1] at hv
        rcases List.mem_cons.1 hv with rfl | hv
        · exact ⟨i, hi, hget, hp⟩
        · obtain ⟨m, hm, g1, g2⟩ := ih _ _ _ _ _
            (by rw [List.length_eraseIdx_of_lt hidx, List.length_eraseIdx_of_lt (by omega), hl])
            (fun x hx => hw x (hsub.subset hx)) (fun x y hs => ha x y (hs.trans hsub)) h4 v hv
          have hm' : (ws.eraseIdx (vs.idxOf c))[m]? = some ((ws.eraseIdx (vs.idxOf c))[m]) :=
            List.getElem?_eq_getElem hm
          rw [List.getElem?_eraseIdx] at g1 hm'
          split at hm'
          · rename_i hlt
            rw [if_pos hlt] at g1
            obtain ⟨q1, q2⟩ := List.getElem?_eq_some_iff.1 hm'
            exact ⟨m, q1, g1, by rw [q2]; exact g2⟩
          · rename_i hlt
            rw [if_neg hlt] at g1
            obtain ⟨q1, q2⟩ := List.getElem?_eq_some_iff.1 hm'
            exact ⟨m + 1, q1, g1, by rw [q2]; exact g2⟩
  unfold chooseWithoutReplacement at h
  rw [show weights.isEmpty = false by cases weights <;> simp_all] at h
  simp only [Bool.false_eq_true, if_false] at h
  split at h
  · simp at h
  · split at h
    · simp at h
    · rename_i hlen
      match values, hn with
      | a :: b :: l, _ => exact loop _ _ _ _ _ _ (by simpa using Eq.symm (not_not.1 hlen)) hw hadj h

/-- No zero stands between two equal positive weights. -/
def ZerosOutside (ws : List Rat) : Prop := ∀ x, [x, 0, x].Sublist ws → x = 0

abbrev isZ (q : Rat) : Bool := decide (q = 0)

theorem erase_zeros_aux (x : Rat) (hx : x ≠ 0) (l : List Rat) (j : Nat) (h : ZerosOutside (x :: l))
    (hj : l[j]? = some x) : isZ x :: (l.eraseIdx j).map isZ = l.map isZ := by
  induction j generalizing l with
  | zero =>
    cases l with
    | nil => simp at hj
    | cons b l => simp at hj; simp [hj]
  | succ j ih =>
    cases l with
    | nil => simp at hj
    | cons b l =>
      simp only [List.getElem?_cons_succ] at hj
      have hb : b ≠ 0 := by
        rintro rfl
        exact hx (h x (.cons_cons _ (.cons_cons _ (List.singleton_sublist.2 (List.mem_of_getElem? hj)))))
      have := ih l (fun y hs => h y (hs.trans (.cons_cons _ (List.sublist_cons_self _ _)))) hj
      rw [List.eraseIdx_cons_succ, List.map_cons, List.map_cons, ← this]
      simp [isZ, hx, hb]

theorem erase_zeros (ws : List Rat) (j : Nat) (x : Rat) (hx : x ≠ 0) (h : ZerosOutside ws)
    (hj : ws[j]? = some x) : (ws.erase x).map isZ = (ws.map isZ).eraseIdx j := by
  rw [List.eraseIdx_map]
  induction ws generalizing j with
  | nil => simp at hj
  | cons a l ih =>
    cases j with
    | zero => simp at hj; simp [hj]
    | succ j =>
      simp only [List.getElem?_cons_succ] at hj
      by_cases hax : a = x
      · subst hax
        rw [List.erase_cons_head, List.eraseIdx_cons_succ, List.map_cons, erase_zeros_aux a hx l j h hj]
      · rw [List.erase_cons_tail (by simpa using hax), List.eraseIdx_cons_succ, List.map_cons, List.map_cons,
          ih j (fun y hs => h y (hs.trans (List.sublist_cons_self _ _))) hj]

theorem loop_zeros [DecidableEq α] (r : Rng W) (zv : α → Bool) (n : Nat) :
    ∀ (vs : List α) (ws : List Rat) (w w' : W) (sel : List α), vs.Nodup →
      ws.map isZ = vs.map zv → (∀ x ∈ ws, 0 ≤ x) → ZerosOutside ws →
      chooseLoop r n vs ws w = .ok sel w' → ∀ v ∈ sel, zv v = false := by
  induction n with
  | zero =>
    intro vs ws w w' sel _ _ _ _ h
    simp only [chooseLoop, M.pure_eq, Res.ok.injEq] at h
    simp [← h.1]
  | succ n ih =>
    intro vs ws w w' sel hnd hz hw ha h
    have hl : ws.length = vs.length := by simpa using congrArg List.length hz
    simp only [chooseLoop] at h
    obtain ⟨ch, w1, h1, h2⟩ := M.bind_ok.1 h
    cases ch with
    | nil => simp at h2
    | cons c cs =>
      obtain ⟨i, hi, hget, hp⟩ := draw_of_ok hl hw h1
      dsimp only at h2
      obtain ⟨rest, w2, h4, h5⟩ := M.bind_ok.1 h2
      simp only [M.pure_eq, Res.ok.injEq] at h5
      obtain ⟨q1, q2⟩ := List.getElem?_eq_some_iff.1 hget
      have hidx : vs.idxOf c = i := by rw [← q2]; exact hnd.idxOf_getElem i q1
      have hwg : ws[i]? = some (ws.getD i 0) := by
        rw [List.getD_eq_getElem?_getD, List.getElem?_eq_getElem hi]; rfl
      have hx0 : ws.getD i 0 ≠ 0 := by
        rw [List.getD_eq_getElem?_getD, List.getElem?_eq_getElem hi]; exact hp.ne'
      have e2 : vs.erase c = vs.eraseIdx i := List.erase_eq_eraseIdx_of_idxOf hidx
      rw [hidx, e2] at h4
      intro v hv
      rw [← h5.1] at hv
      rcases List.mem_cons.1 hv with rfl | hv
      · have := congrArg (fun l : List Bool => l[i]?) hz
        simp only [List.getElem?_map, hget, hwg, Option.map_some, Option.some.injEq] at this
        rw [← this]; simpa [isZ] using hx0
      · refine ih _ _ _ _ _ (hnd.sublist (List.eraseIdx_sublist _ _)) ?_
          (fun x hx => hw x (List.mem_of_mem_erase hx))
          (fun y hs => ha y (hs.trans List.erase_sublist)) h4 v hv
        rw [erase_zeros ws i _ hx0 ha hwg, hz, List.eraseIdx_map]

/-- **C10** With different options, no draw of a selection returns one of weight zero if no zero stands
between two equal positive weights. -/
theorem choice_positive_distinct [DecidableEq α] (r : Rng W) (values : List α) (weights : List Rat)
    (k : Int) (hnd : values.Nodup) (hn : 2 ≤ values.length) (hne : weights ≠ [])
    (hw : ∀ x ∈ weights, 0 ≤ x) (hz : ZerosOutside weights)
    (w w' : W) (sel : List α) (h : chooseWithoutReplacement r values weights k w = .ok sel w') :
    ∀ (i : Nat) (v : α), values[i]? = some v → weights[i]? = some 0 → v ∉ sel := by
  unfold chooseWithoutReplacement at h
  rw [show weights.isEmpty = false by cases weights <;> simp_all] at h
  simp only [Bool.false_eq_true, if_false] at h
  split at h
  · simp at h
  · split at h
    · simp at h
    · rename_i hlen
      have hlen : values.length = weights.length := not_not.1 hlen
      have h' : chooseLoop r k.toNat values weights w = .ok sel w' := by
        match values, hn with
        | a :: b :: l, _ => exact h
      intro i v hv h0 hs
      have := loop_zeros r (fun v => isZ (weights.getD (values.idxOf v) 0)) k.toNat values weights w w' sel hnd
        (by
          refine List.ext_getElem (by simp [hlen]) fun m h1 h2 => ?_
          simp only [List.length_map] at h1 h2
          simp [hnd.idxOf_getElem m h2, List.getD_eq_getElem?_getD, List.getElem?_eq_getElem h1])
        hw hz h' v hs
      obtain ⟨q1, q2⟩ := List.getElem?_eq_some_iff.1 hv
      have hidx : values.idxOf v = i := by rw [← q2]; exact hnd.idxOf_getElem i q1
      simp only [hidx, List.getD_eq_getElem?_getD, h0] at this
      simp [isZ] at this

theorem choicesCum_one (r : Rng W) {pop : List α} {ws : List Rat} {w : W} {i : Nat} {v : α}
    (hlen : ws.length = pop.length) (hw : ∀ x ∈ ws, 0 ≤ x) (hpos : 0 < ws.sum)
    (hi : weightedIndex r.arith (accumulate r.arith ws) (r.unit w).1.val = i) (hv : pop[i]? = some v) :
    r.choicesCum pop (accumulate r.arith ws) 1 w = .ok [v] (r.unit w).2 := by
  have hne : ws ≠ [] := by rintro rfl; simp at hpos
  have c1 : ¬ (accumulate r.arith ws).length ≠ pop.length := by rw [accumulate_length]; simpa using hlen
  have c2 : ¬ (accumulate r.arith ws).isEmpty = true := by
    rw [List.isEmpty_iff, ← List.length_eq_zero_iff, accumulate_length, List.length_eq_zero_iff]
    exact hne
  have c3 : ¬ (accumulate r.arith ws).getLastD 0 ≤ 0 :=
    not_le.2 (accumulate_last_pos r.arith hw (exists_pos_of_sum hpos))
  have h0 : r.choicesCum pop (accumulate r.arith ws) 0 (r.unit w).2 = .ok [] (r.unit w).2 := by
    simp only [Rng.choicesCum]
    rw [if_neg c1, if_neg c2, if_neg c3]
  rw [show (1 : Nat) = 0 + 1 from rfl, Rng.choicesCum]
  dsimp only
  rw [if_neg c1, if_neg c2, if_neg c3, hi, hv]
  dsimp only
  rw [M.bind_of_ok h0]
  rfl

theorem sum_pos_of_getElem {ws : List Rat} (hw : ∀ x ∈ ws, 0 ≤ x) {i : Nat} {x : Rat} (hi : ws[i]? = some x)
    (hx : 0 < x) : 0 < ws.sum := by
  have hm := List.mem_of_getElem? hi
  have := List.single_le_sum hw x hm
  linarith

theorem last_zero {ws : List Rat} {x : Rat} (h : [x, 0, x].Sublist ws) :
    ∃ P C D, ws = P ++ 0 :: (C ++ x :: D) ∧ x ∈ P ∧ 0 ∉ C := by
  obtain ⟨A, R1, rfl, hA, h1⟩ := List.cons_sublist_iff.1 h
  obtain ⟨B, R2, rfl, hB, h2⟩ := List.cons_sublist_iff.1 h1
  have hxR : x ∈ R2 := List.singleton_sublist.1 h2
  obtain ⟨C, D, rfl⟩ := List.append_of_mem hxR
  have h0 : (0 : Rat) ∈ (B ++ C).reverse := by simp [hB]
  obtain ⟨E, F, hEF, hnE⟩ := List.eq_append_cons_of_mem h0
  have e : B ++ C = F.reverse ++ 0 :: E.reverse := by
    have := congrArg List.reverse hEF
    rw [List.reverse_reverse] at this
    rw [this]; simp
  refine ⟨A ++ F.reverse, E.reverse, D, ?_, by simp [hA], by simpa using hnE⟩
  rw [← List.append_assoc B, e]
  simp

/-- **C10** Exactly when a selection of several can contain an option of weight zero, for different
options with weights that are not negative: if and only if a zero stands between two equal positive
weights. -/
theorem zero_weight_chosen_iff [DecidableEq α] (values : List α) (weights : List Rat)
    (hnd : values.Nodup) (hn : 2 ≤ values.length) (hlen : weights.length = values.length)
    (hw : ∀ x ∈ weights, 0 ≤ x) :
    (∃ (r : Rng Nat) (k : Int) (w w' : Nat) (sel : List α) (i : Nat) (v : α),
      chooseWithoutReplacement r values weights k w = .ok sel w' ∧
      values[i]? = some v ∧ weights[i]? = some 0 ∧ v ∈ sel) ↔
    ∃ x, 0 < x ∧ [x, 0, x].Sublist weights := by
  have hne : weights ≠ [] := by rintro rfl; simp at hlen; omega
  constructor
  · rintro ⟨r, k, w, w', sel, i, v, h, hv, h0, hs⟩
    by_contra hcon
    refine choice_positive_distinct r values weights k hnd hn hne hw ?_ w w' sel h i v hv h0 hs
    intro x hsub
    by_contra hx
    exact hcon ⟨x, lt_of_le_of_ne (hw x (hsub.subset (by simp))) (Ne.symm hx), hsub⟩
  · rintro ⟨x, hx, hsub⟩
    obtain ⟨P, C, D, rfl, hxP, hC⟩ := last_zero hsub
    have hj : (P ++ 0 :: (C ++ x :: D))[P.length]? = some 0 := by simp
    have hk : (P ++ 0 :: (C ++ x :: D))[P.length + (C.length + 1)]? = some x := by
      rw [List.getElem?_append_right (by omega)]
      simp
    have hl2 : (P ++ 0 :: (C ++ x :: D)).length = P.length + (C.length + 1) + D.length + 1 := by
      simp; omega
    have hPl : 0 < P.length := List.length_pos_of_mem hxP
    obtain ⟨vk, hvk⟩ : ∃ v, values[P.length + (C.length + 1)]? = some v :=
      ⟨_, List.getElem?_eq_getElem (by omega)⟩
    obtain ⟨vj, hvj⟩ : ∃ v, values[P.length]? = some v := ⟨_, List.getElem?_eq_getElem (by omega)⟩
    have hidx : values.idxOf vk = P.length + (C.length + 1) := by
      obtain ⟨q1, q2⟩ := List.getElem?_eq_some_iff.1 hvk
      rw [← q2]; exact hnd.idxOf_getElem _ q1
    have er : values.erase vk = values.eraseIdx (P.length + (C.length + 1)) :=
      List.erase_eq_eraseIdx_of_idxOf hidx
    have ew : (P ++ 0 :: (C ++ x :: D)).erase x = P.erase x ++ 0 :: (C ++ x :: D) :=
      List.erase_append_left _ hxP
    have hPe : (P.erase x).length = P.length - 1 := List.length_erase_of_mem hxP
    have hw2 : ∀ y ∈ P.erase x ++ 0 :: (C ++ x :: D), 0 ≤ y := by
      rw [← ew]; exact fun y hy => hw y (List.mem_of_mem_erase hy)
    obtain ⟨y, hy, hy0⟩ : ∃ y, (P.erase x ++ 0 :: (C ++ x :: D))[P.length]? = some y ∧ y ≠ 0 := by
      rw [List.getElem?_append_right (by omega), hPe, show P.length - (P.length - 1) = 1 by omega]
      cases C with
      | nil => exact ⟨x, by simp, hx.ne'⟩
      | cons c C => exact ⟨c, by simp, fun e => hC (by simp [e])⟩
    have hyp : 0 < y := lt_of_le_of_ne (hw2 y (List.mem_of_getElem? hy)) (Ne.symm hy0)
    obtain ⟨b1, b2⟩ := List.getElem?_eq_some_iff.1 hk
    obtain ⟨q0, a0, a1, a2⟩ := draw_reaches _ hw _ b1 (by rw [b2]; exact hx)
    obtain ⟨d1, d2⟩ := List.getElem?_eq_some_iff.1 hy
    obtain ⟨q1, e0, e1, e2⟩ := draw_reaches _ hw2 _ d1 (by rw [d2]; exact hyp)
    let r : Rng Nat := ⟨.exact, fun n w => (0, w), fun w => if w = 0 then (⟨q0, a0, a1⟩, 1) else (⟨q1, e0, e1⟩, 2)⟩
    have s1 : r.choicesCum values (accumulate .exact (P ++ 0 :: (C ++ x :: D))) 1 0 = .ok [vk] 1 :=
      choicesCum_one r hlen hw (sum_pos_of_getElem hw hk hx) a2 hvk
    have hve : (values.eraseIdx (P.length + (C.length + 1)))[P.length]? = some vj := by
      rw [List.getElem?_eraseIdx, if_pos (by omega)]; exact hvj
    have hl3 : (P.erase x ++ 0 :: (C ++ x :: D)).length =
        (values.eraseIdx (P.length + (C.length + 1))).length := by
      rw [List.length_eraseIdx_of_lt (by omega), ← hlen]
      simp [hPe]; omega
    have s2 : r.choicesCum (values.eraseIdx (P.length + (C.length + 1)))
        (accumulate .exact (P.erase x ++ 0 :: (C ++ x :: D))) 1 1 = .ok [vj] 2 :=
      choicesCum_one r hl3 hw2 (sum_pos_of_getElem hw2 hy hyp) e2 hve
    refine ⟨r, 2, 0, 2, [vk, vj], P.length, vj, ?_, hvj, hj, by simp⟩
    have hloop : chooseLoop r 2 values (P ++ 0 :: (C ++ x :: D)) 0 = .ok [vk, vj] 2 := by
      simp only [chooseLoop]
      rw [M.bind_of_ok s1]
      dsimp only
      rw [hidx, List.getD_eq_getElem?_getD, hk, Option.getD_some, er, ew]
      rw [M.bind_of_ok (a := [vj]) (w' := 2) (by rw [M.bind_of_ok s2]; rfl)]
      rfl
    unfold chooseWithoutReplacement
    rw [if_neg (by omega)]
    rw [show (P ++ 0 :: (C ++ x :: D)).isEmpty = false by cases P <;> simp_all]
    simp only [Bool.false_eq_true, if_false]
    rw [if_neg (by simpa using hlen.symm)]
    match values, hn with
    | a :: b :: l, _ => exact hloop

/-- Non-vacuity: with the weights 1, 0, 1 the second of three options can be chosen, with 0, 1, 1 (or
1, 0, 2) the one of weight zero cannot. -/
example : ZerosOutside [0, 1, 1] ∧ ZerosOutside [1, 0, 2] ∧ Adjacent [0, 1, 1] ∧
    [(1 : Rat), 0, 1].Sublist [1, 0, 1] := by
  have sub3 : ∀ (a b c x y z : Rat), [x, y, z].Sublist [a, b, c] → x = a ∧ y = b ∧ z = c := by
    intro a b c x y z h
    have := h.eq_of_length rfl
    simpa using this
  refine ⟨fun x h => ?_, fun x h => ?_, fun x y h => ?_, List.Sublist.refl _⟩
  · obtain ⟨h1, h2, h3⟩ := sub3 _ _ _ _ _ _ h; exact h1
  · obtain ⟨h1, h2, h3⟩ := sub3 _ _ _ _ _ _ h
    rw [h1] at h3; norm_num at h3
  · obtain ⟨h1, h2, h3⟩ := sub3 _ _ _ _ _ _ h
    rw [h1] at h3; norm_num at h3

/-! ## C09, choosing without replacement -/

/-- **C09** The chosen values are a sub-multiset of the given values and their number is the number
asked for (none for a negative number), except that a single value is returned whatever the number. -/
theorem choose_submultiset [DecidableEq α] (r : Rng W) (values : List α) (weights : List Rat)
    (k : Int) (w w' : W) (sel : List α)
    (h : chooseWithoutReplacement r values weights k w = .ok sel w') :
    sel.Subperm values ∧
    (values.length = 1 → sel = values) ∧
    (values.length ≠ 1 → sel.length = k.toNat) := by
  refine ⟨(choose_ok h).1, ?_, ?_⟩
  · intro h1
    match values, h1 with
    | [v], _ =>
      unfold chooseWithoutReplacement at h
      dsimp only at h
      generalize (if weights.isEmpty = true then List.replicate [v].length 1 else weights) = ws at h
      split at h
      · simp at h
      · split at h
        · simp at h
        · simp only [M.pure_eq, Res.ok.injEq] at h
          exact h.1.symm
  · intro h1
    by_cases hk : 0 ≤ k
    · have := (choose_ok h).2 h1 hk
      omega
    · have h0 : k.toNat = 0 := by omega
      rw [h0]
      match values, h1 with
      | [], _ => exact List.length_eq_zero_iff.2 (List.subperm_nil.1 (choose_ok h).1)
      | a :: b :: l, _ =>
        unfold chooseWithoutReplacement at h
        rw [h0] at h
        dsimp only at h
        generalize (if weights.isEmpty = true then List.replicate (a :: b :: l).length 1 else weights) = ws at h
        split at h
        · simp at h
        · split at h
          · simp at h
          · simp only [chooseLoop, M.pure_eq, Res.ok.injEq] at h
            rw [← h.1]; rfl

/-- The exception is real: a single value is returned even if none is asked for. -/
theorem choose_zero_of_one (r : Rng W) (v : α) [DecidableEq α] (w : W) :
    chooseWithoutReplacement r [v] [1] 0 w = .ok [v] w := by
  simp [chooseWithoutReplacement]

/-- **C09** Asking for more values than there are, or giving the wrong number of weights, raises
ValueError without using the random source. -/
theorem choose_value_error [DecidableEq α] (r : Rng W) (values : List α) (weights : List Rat) (k : Int)
    (w : W) (h : (values.length : Int) < k ∨ (weights ≠ [] ∧ weights.length ≠ values.length)) :
    chooseWithoutReplacement r values weights k w = .err .value w := by
  unfold chooseWithoutReplacement
  by_cases hk : (values.length : Int) < k
  · rw [if_pos hk]; simp
  · rw [if_neg hk]
    rcases h with h | ⟨h1, h2⟩
    · exact absurd h hk
    · have : weights.isEmpty = false := by cases weights <;> simp_all
      rw [this]
      simp only [Bool.false_eq_true, if_false]
      rw [if_pos (fun e => h2 e.symm)]
      simp

theorem eraseWeights_pos {ws : List Rat} (hw : ∀ x ∈ ws, 0 < x) (y : Rat) : ∀ x ∈ ws.erase y, 0 < x :=
  fun x hx => hw x (List.mem_of_mem_erase hx)

/-- **C09** In all other cases with positive weights it succeeds. -/
theorem choose_succeeds [DecidableEq α] (r : Rng W) (values : List α) (weights : List Rat) (k : Int)
    (hk : k ≤ values.length) (hlen : weights = [] ∨ weights.length = values.length)
    (hw : ∀ x ∈ weights, 0 < x) (w : W) :
    ∃ sel w', chooseWithoutReplacement r values weights k w = .ok sel w' := by
  have loop : ∀ (n : Nat) (vs : List α) (ws : List Rat) (w : W), n ≤ vs.length → ws.length = vs.length →
      (∀ x ∈ ws, 0 < x) → ∃ sel w', chooseLoop r n vs ws w = .ok sel w' := by
    intro n
    induction n with
    | zero => intro vs ws w _ _ _; exact ⟨[], w, rfl⟩
    | succ n ih =>
      intro vs ws w hn hl hpos
      have hsum : 0 < ws.sum := by
        cases ws with
        | nil => simp at hl; omega
        | cons x ws =>
          rw [List.sum_cons]
          have := hpos x (by simp)
          have := List.sum_nonneg (fun y hy => (hpos y (by simp [hy])).le) (l := ws)
          linarith
      obtain ⟨ch, w1, h1, h2, h3⟩ := choices_positive r vs ws hl (fun x hx => (hpos x hx).le) hsum 1 w
      cases ch with
      | nil => simp at h2
      | cons c cs =>
        obtain ⟨i, hi, hget, -⟩ := h3 c (by simp)
        have hmem : c ∈ vs := List.mem_of_getElem? hget
        have hidx : vs.idxOf c < ws.length := by rw [hl]; exact List.idxOf_lt_length_iff.2 hmem
        have hwm : ws.getD (vs.idxOf c) 0 ∈ ws := by
          rw [List.getD_eq_getElem?_getD, List.getElem?_eq_getElem hidx]
          exact List.getElem_mem _
        obtain ⟨sel, w', h4⟩ := ih (vs.erase c) (ws.erase (ws.getD (vs.idxOf c) 0)) w1
          (by rw [List.length_erase_of_mem hmem]; omega)
          (by rw [List.length_erase_of_mem hmem, List.length_erase_of_mem hwm, hl])
          (eraseWeights_pos hpos _)
        refine ⟨c :: sel, w', ?_⟩
        simp only [chooseLoop]
        rw [M.bind_of_ok h1]
        dsimp only
        rw [M.bind_of_ok h4]
        rfl
  unfold chooseWithoutReplacement
  rw [if_neg (by omega)]
  have hws : ∃ ws, (if weights.isEmpty = true then List.replicate values.length 1 else weights) = ws ∧
      ws.length = values.length ∧ ∀ x ∈ ws, 0 < x := by
    rcases hlen with rfl | hl
    · exact ⟨_, rfl, by simp, by simp⟩
    · by_cases he : weights.isEmpty = true
      · rw [if_pos he]; exact ⟨_, rfl, by simp, by simp⟩
      · rw [if_neg he]; exact ⟨_, rfl, hl, hw⟩
  obtain ⟨ws, he, hl, hp⟩ := hws
  rw [he]
  rw [if_neg (by simpa using hl.symm)]
  match values, hk, hl with
  | [], _, _ => exact ⟨_, _, rfl⟩
  | [v], _, _ => exact ⟨_, _, rfl⟩
  | a :: b :: l, hk, hl => exact loop _ _ _ w (by omega) hl hp

example : (match chooseWithoutReplacement Demo.rng [c!"a", c!"b", c!"c"] [1, 2, 3] 2 0 with
    | .ok s _ => s | _ => []) = [c!"a", c!"c"] := by decide +kernel

/-! ## C37, C38: weights of wildcard values -/

/-- **C37** Deterministic iteration lists each value `⌊weight⌋` times, in item order: iterating a
concatenation is the concatenation, and one item gives that many copies. -/
theorem iterate_weighted_spec :
    iterateWeighted [] = [] ∧
    (∀ a b, iterateWeighted (a ++ b) = iterateWeighted a ++ iterateWeighted b) ∧
    (∀ i : Item, iterateWeighted [i] = List.replicate (i.weight.getD 1).floor.toNat i.content) := by
  refine ⟨rfl, ?_, ?_⟩
  · intro a b; simp [iterateWeighted]
  · intro i; simp [iterateWeighted, Item.w]

/-- **C37** The number of times a value is listed is the sum of the integer parts of its weights. -/
theorem iterate_weighted_count (items : List Item) (s : Str) :
    (iterateWeighted items).count s =
      ((items.filter (fun i => i.content = s)).map (fun i => (i.weight.getD 1).floor.toNat)).sum := by
  induction items with
  | nil => rfl
  | cons i is ih =>
    have : iterateWeighted (i :: is) = List.replicate (i.weight.getD 1).floor.toNat i.content ++
        iterateWeighted is := by simp [iterateWeighted, Item.w]
    rw [this, List.count_append, ih, List.count_replicate]
    by_cases h : i.content = s
    · simp [h]
    · simp [h]

/-- **C37** Unweighted values are listed once each, in order. -/
theorem iterate_unweighted (items : List Item) (h : ∀ i ∈ items, i.weight = none) :
    iterateWeighted items = items.map Item.content := by
  induction items with
  | nil => rfl
  | cons i is ih =>
    have h1 : i.weight = none := h i (by simp)
    have : iterateWeighted (i :: is) = List.replicate (i.weight.getD 1).floor.toNat i.content ++
        iterateWeighted is := by simp [iterateWeighted, Item.w]
    have hf : ((1 : Rat).floor).toNat = 1 := by decide +kernel
    rw [this, ih (fun j hj => h j (by simp [hj])), h1]
    simp [hf]

/-- **C37** The cumulative weights are the sums of the leading weights, and the last one is the total (`exact`: sums
without rounding); with non-negative weights they never decrease, however the sums are rounded (`A`). -/
theorem cum_weights_spec (items : List Item) :
    (∀ A, (cumWeights A items).length = items.length) ∧
    (∀ i, i < items.length →
      (cumWeights .exact items).getD i 0 = ((items.take (i + 1)).map (fun i => i.weight.getD 1)).sum) ∧
    ((∀ i ∈ items, 0 ≤ i.weight.getD 1) → ∀ A i j, i ≤ j → j < items.length →
      (cumWeights A items).getD i 0 ≤ (cumWeights A items).getD j 0) ∧
    (cumWeights .exact items).getLastD 0 = (items.map (fun i => i.weight.getD 1)).sum := by
  have h1 : ∀ i, i < items.length →
      (cumWeights .exact items).getD i 0 = ((items.map Item.w).take (i + 1)).sum := by
    intro i hi; exact accumulate_getD _ i (by simpa using hi)
  refine ⟨fun A => by simp [cumWeights, accumulate_length], ?_, ?_, ?_⟩
  · intro i hi
    rw [h1 i hi, List.map_take]; rfl
  · intro hw A i j hij hj
    refine accumulate_mono A ?_ hij (by simpa using hj)
    intro x hx
    obtain ⟨it, hit, rfl⟩ := List.mem_map.1 hx
    exact hw it hit
  · exact accumulate_getLastD _

example : iterateWeighted [⟨c!"a", some (5/2)⟩, ⟨c!"b", none⟩, ⟨c!"c", some 0⟩] =
    [c!"a", c!"a", c!"b"] := by decide +kernel

end Verif.Props
