import Verif.Proofs.Seeds
/-! Iterating to the end, and up to a limit. -/

namespace Verif
open Spec
variable {W : Type} {E : Env W}

theorem drainList_ok {n k : Nat} {g : Gen} {w w' : W} {ps : List Str} :
    drainList E n k g w = .ok ps w' ↔ collect E n k g w = (ps, .stop w') := by
  induction k generalizing g w ps with
  | zero => simp [drainList, collect, M.diverge]
  | succ k ih =>
    simp only [drainList, collect]
    rw [M.bind_eq]
    cases nextG E n g w with
    | ok o w1 =>
      cases o with
      | none => simp
      | some p =>
        dsimp only
        rw [M.bind_ok]
        constructor
        · rintro ⟨vs, w2, h1, h2⟩
          cases h2
          rw [ih.1 h1]
        · intro h
          injection h with h1 h2
          subst h1
          refine ⟨_, w', ih.2 (Prod.ext rfl h2), rfl⟩
    | err e w1 => simp
    | fuel => simp

theorem drainList_err {n k : Nat} {g : Gen} {w w' : W} {e : Err} :
    drainList E n k g w = .err e w' ↔ (collect E n k g w).2 = .raised e w' := by
  induction k generalizing g w with
  | zero => simp [drainList, collect, M.diverge]
  | succ k ih =>
    simp only [drainList, collect]
    rw [M.bind_eq]
    cases nextG E n g w with
    | ok o w1 =>
      cases o with
      | none => simp
      | some p =>
        dsimp only
        rw [M.bind_eq]
        constructor
        · intro h
          cases hx : drainList E n k p.2 w1 with
          | ok => rw [hx] at h; cases h
          | err e' w2 => rw [hx] at h; cases h; exact ih.1 hx
          | fuel => rw [hx] at h; cases h
        · intro h
          rw [ih.2 h]
    | err e w1 => simp
    | fuel => simp

/-- An iteration that ended gives the same with every limit above the number of its prompts. -/
theorem collect_stop_any {n k : Nat} {g : Gen} {w w' : W} {ps : List Str}
    (h : collect E n k g w = (ps, .stop w')) {j : Nat} (hj : ps.length < j) :
    collect E n j g w = (ps, .stop w') := by
  induction k generalizing g w ps j with
  | zero => simp [collect] at h
  | succ k ih =>
    obtain ⟨j, rfl⟩ : ∃ i, j = i + 1 := ⟨j - 1, by omega⟩
    simp only [collect] at h ⊢
    cases hx : nextG E n g w with
    | ok o w1 =>
      rw [hx] at h
      cases o with
      | none => simpa using h
      | some p =>
        dsimp only at h ⊢
        injection h with h1 h2
        subst h1
        rw [ih (Prod.ext rfl h2) (by simpa using hj)]
    | err e w1 => rw [hx] at h; simp at h
    | fuel => rw [hx] at h; simp at h

/-- The same for an iteration that raised. -/
theorem collect_raised_any {n k : Nat} {g : Gen} {w w' : W} {e : Err} {ps : List Str}
    (h : collect E n k g w = (ps, .raised e w')) {j : Nat} (hj : ps.length < j) :
    collect E n j g w = (ps, .raised e w') := by
  induction k generalizing g w ps j with
  | zero => simp [collect] at h
  | succ k ih =>
    obtain ⟨j, rfl⟩ : ∃ i, j = i + 1 := ⟨j - 1, by omega⟩
    simp only [collect] at h ⊢
    cases hx : nextG E n g w with
    | ok o w1 =>
      rw [hx] at h
      cases o with
      | none => simp at h
      | some p =>
        dsimp only at h ⊢
        injection h with h1 h2
        subst h1
        rw [ih (Prod.ext rfl h2) (by simpa using hj)]
    | err e w1 => rw [hx] at h; simpa using h
    | fuel => rw [hx] at h; simp at h

/-- A finished iteration, cut at a smaller limit. -/
theorem collect_take_finished {n m : Nat} {g : Gen} {w w' : W} {ps : List Str} {fuel : Nat}
    (h : Finished (collect E fuel m g w) ps w') (hn : n ≤ m) :
    ∃ w'', Finished (collect E fuel n g w) (ps.take n) w'' := by
  induction n generalizing m g w ps with
  | zero => exact ⟨w, by simp [collect, Finished]⟩
  | succ n ih =>
    obtain ⟨m, rfl⟩ : ∃ i, m = i + 1 := ⟨m - 1, by omega⟩
    obtain ⟨h1, h2⟩ := h
    simp only [collect] at h1 h2 ⊢
    cases hx : nextG E fuel g w with
    | ok o w1 =>
      rw [hx] at h1 h2
      cases o with
      | none =>
        dsimp only at h1 h2 ⊢
        subst h1
        exact ⟨w1, rfl, .inr rfl⟩
      | some p =>
        dsimp only at h1 h2 ⊢
        subst h1
        obtain ⟨w2, h3, h4⟩ := ih ⟨rfl, h2⟩ (by omega : n ≤ m)
        exact ⟨w2, by rw [h3]; simp, h4⟩
    | err e w1 => rw [hx] at h2; rcases h2 with ⟨_, h2⟩ | h2 <;> cases h2
    | fuel => rw [hx] at h2; rcases h2 with ⟨_, h2⟩ | h2 <;> cases h2

theorem finished_length {n : Nat} {g : Gen} {w w' : W} {ps : List Str} {fuel : Nat}
    (h : Finished (collect E fuel n g w) ps w') : ps.length ≤ n := by
  obtain ⟨rfl, -⟩ := h
  induction n generalizing g w with
  | zero => simp [collect]
  | succ n ih =>
    simp only [collect]
    cases nextG E fuel g w with
    | ok o w1 =>
      cases o with
      | none => simp
      | some p => simpa using ih
    | err e w1 => simp
    | fuel => simp

/-- More fuel changes no iteration that has an answer. -/
theorem collect_fuel_mono {n m k : Nat} (h : n ≤ m) {g : Gen} {w : W}
    (ha : (collect E n k g w).2 ≠ .fuel) : collect E m k g w = collect E n k g w := by
  induction k generalizing g w with
  | zero => rfl
  | succ k ih =>
    simp only [collect] at ha ⊢
    cases hx : nextG E n g w with
    | ok o w1 =>
      rw [nextG_fuel_mono E h g w (by rw [hx]; simp), hx]
      rw [hx] at ha
      cases o with
      | none => rfl
      | some p => dsimp only at ha ⊢; rw [ih ha]
    | err e w1 => rw [nextG_fuel_mono E h g w (by rw [hx]; simp), hx]
    | fuel => rw [hx] at ha; simp at ha

end Verif
