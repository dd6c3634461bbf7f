import Verif.Proofs.Memoryless
import Verif.Spec.Seeds
/-! Seeded and unseeded generation. -/

namespace Verif
open Spec
variable {W : Type} {E : Env W} {reseed : Int → W → W}

theorem takeList_ok {n k : Nat} {g : Gen} {w w' : W} {ps : List Str} :
    takeList E n k g w = .ok ps w' ↔ Finished (collect E n k g w) ps w' := by
  induction k generalizing g w ps with
  | zero =>
    simp only [takeList, collect, Finished, M.pure_eq, Res.ok.injEq]
    constructor
    · rintro ⟨rfl, rfl⟩; exact ⟨rfl, .inl ⟨g, rfl⟩⟩
    · rintro ⟨rfl, ⟨g', h⟩ | h⟩ <;> cases h; exact ⟨rfl, rfl⟩
  | succ k ih =>
    simp only [takeList, collect]
    rw [M.bind_eq]
    cases nextG E n g w with
    | ok o w1 =>
      cases o with
      | none =>
        simp only [Finished, M.pure_eq, Res.ok.injEq]
        constructor
        · rintro ⟨rfl, rfl⟩; exact ⟨rfl, .inr rfl⟩
        · rintro ⟨rfl, ⟨g', h⟩ | h⟩ <;> cases h; exact ⟨rfl, rfl⟩
      | some p =>
        dsimp only
        rw [M.bind_ok]
        constructor
        · rintro ⟨vs, w2, h1, h2⟩
          cases h2
          have := ih.1 h1
          exact ⟨by rw [this.1], this.2⟩
        · rintro ⟨rfl, h2⟩
          exact ⟨_, w', ih.2 ⟨rfl, h2⟩, rfl⟩
    | err e w1 => simp [Finished]
    | fuel => simp [Finished]

theorem takeList_err {n k : Nat} {g : Gen} {w w' : W} {e : Err} :
    takeList E n k g w = .err e w' ↔ (collect E n k g w).2 = .raised e w' := by
  induction k generalizing g w with
  | zero => simp [takeList, collect]
  | succ k ih =>
    simp only [takeList, collect]
    rw [M.bind_eq]
    cases nextG E n g w with
    | ok o w1 =>
      cases o with
      | none => simp
      | some p =>
        dsimp only
        rw [M.bind_eq]
        constructor
        · intro h
          cases hx : takeList E n k p.2 w1 with
          | ok => rw [hx] at h; cases h
          | err e' w2 => rw [hx] at h; cases h; exact ih.1 hx
          | fuel => rw [hx] at h; cases h
        · intro h
          rw [ih.2 h]
    | err e w1 => simp
    | fuel => simp

theorem seedLoop_ok {n : Nat} {l : List Int} {g : Gen} {w w' : W} {ps : List Str} :
    seedLoop E n reseed l g w = .ok ps w' ↔ SeededRun E n reseed g w l ps w' := by
  induction l generalizing g w ps with
  | nil =>
    simp only [seedLoop, M.pure_eq, Res.ok.injEq]
    constructor
    · rintro ⟨rfl, rfl⟩; exact .nil
    · intro h; cases h; exact ⟨rfl, rfl⟩
  | cons s ss ih =>
    simp only [seedLoop]
    rw [M.bind_ok]
    constructor
    · rintro ⟨o, w1, h1, h2⟩
      cases o with
      | none => cases h2
      | some p =>
        obtain ⟨vs, w2, h3, h4⟩ := M.bind_ok.1 h2
        cases h4
        exact .cons (v := p.1) h1 (ih.1 h3)
    · intro h
      cases h with
      | cons h1 h2 => exact ⟨_, _, h1, M.bind_ok.2 ⟨_, _, ih.2 h2, rfl⟩⟩

theorem SeededRun.length {n : Nat} {l : List Int} {g : Gen} {w w' : W} {ps : List Str}
    (h : Spec.SeededRun E n reseed g w l ps w') : ps.length = l.length := by
  induction h with
  | nil => rfl
  | cons _ _ ih => simp [ih]

variable {values : Str → Except Err (List Item)} {R : W → W → Prop}

theorem out_of_next {g g' : Gen} {w w' : W} {v : Str} (h : (lim E).G g w = .ok (some (v, g')) w') :
    out E g w = .ok (some v) w' := by
  show M.bind _ _ w = _
  simp only [M.bind, h]
  rfl

theorem next_of_out {g : Gen} {w w' : W} {v : Str} (h : out E g w = .ok (some v) w') :
    ∃ g', (lim E).G g w = .ok (some (v, g')) w' := by
  obtain ⟨o, w1, h1, h2⟩ := M.bind_ok.1 h
  cases o with
  | none => cases h2
  | some p => cases h2; exact ⟨p.2, h1⟩

theorem mkGen_vars_nil {c : Cmd} {g : Gen} {vars : List (Str × Cmd)}
    (H : SeededWorld E reseed values R) (hc : Memoryless E values vars c) {ctx : Ctx}
    (hm : ctx.method = .random) (hv : ctx.vars = vars) {p : Prompt}
    (hp : ∀ s, p = .inl s → E.parse s = .ok c) (hp' : ∀ c', p = .inr c' → c' = c)
    (hg : sampleGen E ctx p = .ok g) : Steady E R g := by
  have key : ∀ g, (match mkGen E.unknown ctx c with
        | .error e => .error e
        | .ok g => .ok (if E.ignoreWs then .squash g else g)) = Except.ok g → Steady E R g := by
    intro g hg
    cases h1 : mkGen E.unknown ctx c with
    | error e => rw [h1] at hg; cases hg
    | ok g1 =>
      rw [h1] at hg
      have := memoryless_steady H hc ctx hm hv g1 h1
      cases hg
      split
      · exact steady_squash this
      · exact this
  cases p with
  | inl s =>
    simp only [sampleGen] at hg
    split at hg
    · cases hg; exact steady_done H
    · rw [hp s rfl] at hg
      exact key g hg
  | inr c' =>
    obtain rfl := hp' c' rfl
    simp only [sampleGen] at hg
    split at hg
    · cases hg; exact steady_done H
    · exact key g hg

/-- Every prompt of a seeded run is what the initial state gives for its seed in any proper world. -/
theorem seeded_each (H : SeededWorld E reseed values R) {g0 : Gen} {n : Nat} {l : List Int} {g : Gen}
    {w w' : W} {ps : List Str} (hs : Like E R g0 g) (hw : R w w)
    (h : SeededRun E n reseed g w l ps w') (w0 : W) (hw0 : R w0 w0) :
    ∀ p ∈ l.zip ps, ∃ w1, R w1 w1 ∧ out E g0 (reseed p.1 w0) = .ok (some p.2) w1 := by
  induction h with
  | nil => simp
  | @cons g w s v g' w1 ss vs w' h1 h2 ih =>
    have h1' : (lim E).G g (reseed s w) = .ok (some (v, g')) w1 := by
      rw [lim_of_fuel (n := n) (by rw [h1]; simp), h1]
    have hww := H.reseeds s w w hw hw
    have hw1 : R w1 w1 := by
      have := (lim_self H).G g _ _ hww
      rw [h1'] at this
      exact this.2
    intro p hp
    rcases List.mem_cons.1 hp with rfl | hp
    · have h3 := hs.sim _ _ (H.reseeds s w0 w hw0 hw)
      rw [out_of_next h1'] at h3
      cases ho : out E g0 (reseed s w0) with
      | ok a w2 =>
        rw [ho] at h3
        obtain ⟨rfl, h4⟩ := h3
        exact ⟨w2, H.trans _ _ _ h4 (H.symm _ _ h4), rfl⟩
      | err => rw [ho] at h3; exact h3.elim
      | fuel => rw [ho] at h3; exact h3.elim
    · exact ih (hs.next hww h1') hw1 p hp

/-- Conversely, if the initial state gives a prompt for each seed, so does the run. -/
theorem seeded_all (H : SeededWorld E reseed values R) {g0 : Gen} {l : List Int} {g : Gen}
    {w : W} {f : Int → Str} {w0 : W} (hw0 : R w0 w0) (hs : Like E R g0 g) (hw : R w w)
    (h : ∀ s ∈ l, ∃ w1, out E g0 (reseed s w0) = .ok (some (f s)) w1) :
    ∃ w', Ev fun n => SeededRun E n reseed g w l (l.map f) w' := by
  induction l generalizing g w with
  | nil => exact ⟨w, Ev.of fun _ => .nil⟩
  | cons s ss ih =>
    obtain ⟨w1, h1⟩ := h s (by simp)
    have h3 := hs.sim _ _ (H.reseeds s w0 w hw0 hw)
    rw [h1] at h3
    cases ho : out E g (reseed s w) with
    | ok a w2 =>
      rw [ho] at h3
      obtain ⟨rfl, h4⟩ := h3
      obtain ⟨g', h5⟩ := next_of_out ho
      have hww := H.reseeds s w w hw hw
      obtain ⟨w3, h6⟩ := ih (hs.next hww h5) (H.trans _ _ _ (H.symm _ _ h4) h4)
        fun s hs => h s (by simp [hs])
      exact ⟨w3, ((nextG_iff.2 h5).and h6).mp fun n hn => .cons hn.1 hn.2⟩
    | err => rw [ho] at h3; exact h3.elim
    | fuel => rw [ho] at h3; exact h3.elim

theorem collect_le (E : Env W) (n k : Nat) (g : Gen) (w : W) : (collect E n k g w).1.length ≤ k := by
  induction k generalizing g w with
  | zero => simp [collect]
  | succ k ih =>
    simp only [collect]
    split
    · simp
    · simpa using ih _ _
    · simp
    · simp

end Verif
