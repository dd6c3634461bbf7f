import Verif.Proofs.WorldSim
import Verif.Model.Process
/-! Actions see the world only through the random source and the wildcard manager. -/

namespace Verif
open Spec
variable {W W' : Type} {α β : Type}

section
variable {E : Env W} {R : W → W' → Prop} {rng' : Rng W'} {gv' : Str → M W' (List Item)}
  (hd : SameDraws R E.rng rng') (hgv : ∀ wc, SimW R (E.getValues wc) (gv' wc))
include hd hgv

theorem nextG_sim (n : Nat) (g : Gen) : SimW R (nextG E n g) (nextG (swapWorld E rng' gv') n g) :=
  (recs_sim hd hgv n).G g

theorem takeList_sim (n k : Nat) (g : Gen) :
    SimW R (takeList E n k g) (takeList (swapWorld E rng' gv') n k g) := by
  induction k generalizing g with
  | zero => exact .pure _
  | succ k ih =>
    refine (nextG_sim hd hgv n g).bind fun x => ?_
    cases x with
    | none => exact .pure _
    | some x => exact (ih _).bind fun _ => .pure _

theorem drainList_sim (n k : Nat) (g : Gen) :
    SimW R (drainList E n k g) (drainList (swapWorld E rng' gv') n k g) := by
  induction k generalizing g with
  | zero => exact .diverge
  | succ k ih =>
    refine (nextG_sim hd hgv n g).bind fun x => ?_
    cases x with
    | none => exact .pure _
    | some x => exact (ih _).bind fun _ => .pure _

theorem listPrompts_sim (n : Nat) (ctx : Ctx) (t : Str) (num : Option Int) :
    SimW R (listPrompts E n ctx t num) (listPrompts (swapWorld E rng' gv') n ctx t num) := by
  unfold listPrompts
  split
  · exact .pure _
  · rw [sampleGen_swap]
    refine (SimW.lift _).bind fun g => ?_
    cases num with
    | none => exact drainList_sim hd hgv _ _ _
    | some k =>
      dsimp only
      split
      · exact .raise _
      · exact takeList_sim hd hgv _ _ _

variable {reseed : Int → W → W} {reseed' : Int → W' → W'}
  (hr : ∀ i w w', R w w' → R (reseed i w) (reseed' i w'))
include hr

theorem seedLoop_sim (n : Nat) (l : List Int) (g : Gen) :
    SimW R (seedLoop E n reseed l g) (seedLoop (swapWorld E rng' gv') n reseed' l g) := by
  induction l generalizing g with
  | nil => exact .pure _
  | cons s ss ih =>
    intro w w' hw
    have := (nextG_sim hd hgv n g).bind (f := fun x => match x with
        | none => M.raise .stop
        | some (v, g') => seedLoop E n reseed ss g' >>= fun vs => Pure.pure (v :: vs))
      (g := fun x => match x with
        | none => M.raise .stop
        | some (v, g') => seedLoop (swapWorld E rng' gv') n reseed' ss g' >>= fun vs => Pure.pure (v :: vs))
      (by
        intro x
        cases x with
        | none => exact .raise _
        | some x => exact (ih _).bind fun _ => .pure _)
    exact this _ _ (hr s w w' hw)

theorem randomGenerate_sim (n : Nat) (t : Str) (num : Int) (seeds : Seeds) :
    SimW R (randomGenerate E n reseed t num seeds)
      (randomGenerate (swapWorld E rng' gv') n reseed' t num seeds) := by
  unfold randomGenerate
  split
  · dsimp only
    split
    · exact .raise _
    · rw [sampleGen_swap]
      exact (SimW.lift _).bind fun g => seedLoop_sim hd hgv hr _ _ _
  · exact listPrompts_sim hd hgv _ _ _ _

end

theorem split_sim {R : W → W' → Prop} {w : W} {w' : W'} (hw : R w w') {x : Res W α} {y : Res W' α}
    (h : SameOutcome R x y) : (x.split w).1 = (y.split w').1 ∧ R (x.split w).2 (y.split w').2 := by
  cases x <;> cases y <;> first | exact h.elim | skip
  · obtain ⟨rfl, h⟩ := h; exact ⟨rfl, h⟩
  · obtain ⟨rfl, h⟩ := h; exact ⟨rfl, h⟩
  · exact ⟨rfl, hw⟩

/-- An action answers the same and leaves the same iterators. -/
theorem act_sim {env : CtxObj → Env W} {R : W → W' → Prop} {rng' : Rng W'} {gv' : Str → M W' (List Item)}
    (hd : ∀ o, SameDraws R (env o).rng rng') (hgv : ∀ o wc, SimW R ((env o).getValues wc) (gv' wc))
    {reseed : Int → W → W} {reseed' : Int → W' → W'} (hr : ∀ i w w', R w w' → R (reseed i w) (reseed' i w'))
    (fuel : Nat) (a : Act) (its : Iters) (w : W) (w' : W') (hw : R w w') :
    let x := a.run env reseed fuel its w
    let y := a.run (fun o => swapWorld (env o) rng' gv') reseed' fuel its w'
    x.1 = y.1 ∧ x.2.1 = y.2.1 ∧ R x.2.2 y.2.2 := by
  cases a with
  | seed n => exact ⟨rfl, rfl, hr _ _ _ hw⟩
  | random parser ws t num seeds =>
    have h := split_sim hw (randomGenerate_sim (E := env (generatorObj .random parser ws)) (hd _) (hgv _) hr fuel t num seeds
      w w' hw)
    exact ⟨congrArg _ h.1, rfl, h.2⟩
  | comb parser ws t max =>
    have h := split_sim hw (listPrompts_sim (E := env (generatorObj .comb parser ws)) (hd _) (hgv _) fuel
      (generatorCtx .comb) t max w w' hw)
    exact ⟨congrArg _ h.1, rfl, h.2⟩
  | iterate j o p =>
    simp only [Act.run, sampleGen_swap]
    cases sampleGen (env o) o.ctx p with
    | error e => exact ⟨rfl, rfl, hw⟩
    | ok g => exact ⟨rfl, rfl, hw⟩
  | next j =>
    have h := nextG_sim (E := env (its j).1) (hd _) (hgv _) fuel (its j).2 w w' hw
    simp only [Act.run]
    generalize nextG (env (its j).1) fuel (its j).2 w = x at h ⊢
    generalize nextG (swapWorld (env (its j).1) rng' gv') fuel (its j).2 w' = y at h ⊢
    cases x <;> cases y <;> first | exact h.elim | skip
    · obtain ⟨rfl, h⟩ := h
      rename_i r _ _
      cases r <;> exact ⟨rfl, rfl, h⟩
    · obtain ⟨rfl, h⟩ := h; exact ⟨rfl, rfl, h⟩
    · exact ⟨rfl, rfl, hw⟩

end Verif
