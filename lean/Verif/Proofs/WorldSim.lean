import Verif.Proofs.RandomFree
import Verif.Spec.Memoryless
/-! The engine sees the world only through the random source and the wildcard manager. -/

namespace Verif
open Spec
variable {W W' : Type} {α β : Type}

/-- From related worlds `x` and `y` do the same and end in related worlds. -/
def SimW (R : W → W' → Prop) (x : M W α) (y : M W' α) : Prop :=
  ∀ w w', R w w' → SameOutcome R (x w) (y w')

section
variable {R : W → W' → Prop}

theorem SimW.pure (a : α) : SimW R (Pure.pure a : M W α) (Pure.pure a : M W' α) :=
  fun _ _ hw => ⟨rfl, hw⟩

theorem SimW.raise (e : Err) : SimW R (M.raise e : M W α) (M.raise e : M W' α) :=
  fun _ _ hw => ⟨rfl, hw⟩

theorem SimW.diverge : SimW R (M.diverge : M W α) (M.diverge : M W' α) := fun _ _ _ => trivial

theorem SimW.lift (x : Except Err α) : SimW R (M.lift x : M W α) (M.lift x : M W' α) := by
  cases x with
  | ok a => exact .pure a
  | error e => exact .raise e

theorem SimW.bind {x : M W α} {y : M W' α} {f : α → M W β} {g : α → M W' β} (hx : SimW R x y)
    (hf : ∀ a, SimW R (f a) (g a)) : SimW R (x >>= f) (y >>= g) := by
  intro w w' hw
  have h1 := hx w w' hw
  rw [M.bind_eq, M.bind_eq]
  cases hxw : x w with
  | ok a w1 =>
    cases hyw : y w' with
    | ok b w2 => rw [hxw, hyw] at h1; obtain ⟨rfl, h3⟩ := h1; exact hf a w1 w2 h3
    | err e w2 => rw [hxw, hyw] at h1; exact h1.elim
    | fuel => rw [hxw, hyw] at h1; exact h1.elim
  | err e w1 =>
    cases hyw : y w' with
    | ok b w2 => rw [hxw, hyw] at h1; exact h1.elim
    | err e w2 => rw [hxw, hyw] at h1; exact h1
    | fuel => rw [hxw, hyw] at h1; exact h1.elim
  | fuel =>
    cases hyw : y w' with
    | ok b w2 => rw [hxw, hyw] at h1; exact h1.elim
    | err e w2 => rw [hxw, hyw] at h1; exact h1.elim
    | fuel => trivial

end

section
variable {R : W → W' → Prop} {rng : Rng W} {rng' : Rng W'} (hd : SameDraws R rng rng')
include hd

theorem randint_sim (a b : Int) : SimW R (rng.randint a b) (rng'.randint a b) := by
  intro w w' hw
  unfold Rng.randint
  by_cases h : a ≤ b
  · simp only [h, if_true]
    have := hd.below (b - a).toNat w w' hw
    exact ⟨by rw [this.1], this.2⟩
  · simp only [h, if_false]; exact ⟨rfl, hw⟩

theorem choice_sim (l : List α) : SimW R (rng.choice l) (rng'.choice l) := by
  intro w w' hw
  unfold Rng.choice
  cases l with
  | nil => exact ⟨rfl, hw⟩
  | cons a as =>
    have := hd.below as.length w w' hw
    exact ⟨by rw [this.1], this.2⟩

theorem choicesCum_sim (pop : List α) (cum : List Rat) (k : Nat) :
    SimW R (rng.choicesCum pop cum k) (rng'.choicesCum pop cum k) := by
  induction k with
  | zero =>
    intro w w' hw
    unfold Rng.choicesCum
    split
    · exact ⟨rfl, hw⟩
    split
    · exact ⟨rfl, hw⟩
    split
    · exact ⟨rfl, hw⟩
    · exact ⟨rfl, hw⟩
  | succ k ih =>
    intro w w' hw
    unfold Rng.choicesCum
    split
    · exact ⟨rfl, hw⟩
    split
    · exact ⟨rfl, hw⟩
    split
    · exact ⟨rfl, hw⟩
    · have h := hd.unit w w' hw
      simp only [h.1, hd.arith]
      cases pop[weightedIndex rng'.arith cum (rng'.unit w').1.val]? with
      | none => exact ⟨rfl, h.2⟩
      | some v => exact (SimW.bind ih fun vs => .pure _) _ _ h.2

theorem chooseLoop_sim [DecidableEq α] (k : Nat) (values : List α) (weights : List Rat) :
    SimW R (chooseLoop rng k values weights) (chooseLoop rng' k values weights) := by
  induction k generalizing values weights with
  | zero => exact .pure _
  | succ k ih =>
    unfold chooseLoop
    rw [hd.arith]
    refine (choicesCum_sim hd _ _ _).bind fun ch => ?_
    cases ch with
    | nil => exact .raise _
    | cons c _ => exact (ih _ _).bind fun rest => .pure _

theorem chooseWithoutReplacement_sim [DecidableEq α] (values : List α) (weights : List Rat) (k : Int) :
    SimW R (chooseWithoutReplacement rng values weights k)
      (chooseWithoutReplacement rng' values weights k) := by
  unfold chooseWithoutReplacement
  split
  · exact .raise _
  · dsimp only
    generalize (if weights.isEmpty then List.replicate values.length 1 else weights) = ws
    split
    · exact .raise _
    · split
      · exact .pure _
      · exact .pure _
      · exact chooseLoop_sim hd _ _ _

theorem weightedNext_sim (items : List Item) (buf : List Str) :
    SimW R (weightedNext rng items buf) (weightedNext rng' items buf) := by
  unfold weightedNext
  split
  · exact (choice_sim hd _).bind fun v => .pure _
  · cases buf with
    | cons v buf => exact .pure _
    | nil =>
      dsimp only
      rw [hd.arith]
      refine (choicesCum_sim hd _ _ _).bind fun vs => ?_
      cases vs with
      | nil => exact .raise _
      | cons v buf => exact .pure _

end

/-- Related tables of `next`. -/
structure SimRecs (R : W → W' → Prop) (r : Recs W) (s : Recs W') : Prop where
  G : ∀ g, SimW R (r.G g) (s.G g)
  A : ∀ a, SimW R (r.A a) (s.A a)
  S : ∀ c f, SimW R (r.S c f) (s.S c f)
  P : ∀ f, SimW R (r.P f) (s.P f)

section
variable {E : Env W} {R : W → W' → Prop} {rng' : Rng W'} {gv' : Str → M W' (List Item)}
  (hd : SameDraws R E.rng rng')
  (hgv : ∀ wc, SimW R (E.getValues wc) (gv' wc))
  {r : Recs W} {s : Recs W'} (h : SimRecs R r s)

include h

theorem next!_sim (g : Gen) : SimW R (r.next! g) (s.next! g) := by
  unfold Recs.next!
  refine (h.G g).bind fun a => ?_
  cases a with
  | none => exact .raise _
  | some x => exact .pure _

theorem rotate_sim (gs : List Gen) : SimW R (r.rotate gs) (s.rotate gs) := by
  induction gs with
  | nil => exact .pure _
  | cons g gs ih =>
    unfold Recs.rotate
    exact (next!_sim h g).bind fun a => ih.bind fun b => .pure _

theorem sampleFirst_sim (ctx : Ctx) (p : Prompt) :
    SimW R (r.sampleFirst E ctx p) (s.sampleFirst (swapWorld E rng' gv') ctx p) := by
  unfold Recs.sampleFirst
  rw [sampleGen_swap]
  exact (SimW.lift _).bind fun a => (next!_sim h a).bind fun b => .pure _

theorem assign_sim (ctx : Ctx) (name : Str) (value : Cmd) (i o : Bool) :
    SimW R (r.assign E ctx name value i o) (s.assign (swapWorld E rng' gv') ctx name value i o) := by
  unfold Recs.assign
  cases (if o = true then none else List.lookup name ctx.vars) with
  | some v => exact .pure _
  | none =>
    cases i with
    | false => exact .pure _
    | true =>
      simp only [if_true]
      have key : SimW R (do
          let g ← M.lift (mkGen E.unknown ctx value)
          let (v, _) ← r.next! g
          return Cmd.lit v none) (do
          let g ← M.lift (mkGen E.unknown ctx value)
          let (v, _) ← s.next! g
          return Cmd.lit v none) :=
        (SimW.lift _).bind fun a => (next!_sim h a).bind fun b => .pure _
      cases value <;> first | exact SimW.pure _ | exact key

theorem assigns_sim (ctx : Ctx) (cs : List Cmd) :
    SimW R (r.assigns E ctx cs) (s.assigns (swapWorld E rng' gv') ctx cs) := by
  induction cs with
  | nil => exact .pure _
  | cons c cs ih =>
    cases c <;> simp only [Recs.assigns]
    case assign n v i o =>
      exact (assign_sim h ctx n v i o).bind fun a => ih.bind fun b => .pure _
    all_goals exact ih.bind fun b => .pure _

theorem firstValues_sim (l : List (Cmd × Gen)) : SimW R (r.firstValues l) (s.firstValues l) := by
  induction l with
  | nil => exact .pure _
  | cons p l ih =>
    obtain ⟨c, g⟩ := p
    unfold Recs.firstValues
    exact (next!_sim h g).bind fun a => ih.bind fun b => .pure _

theorem mkColl_sim (ctx : Ctx) (l : List Cmd) :
    SimW R (r.mkColl E ctx l) (s.mkColl (swapWorld E rng' gv') ctx l) := by
  unfold Recs.mkColl
  exact (SimW.lift _).bind fun a => firstValues_sim h _

theorem getValue_sim (c : Cmd) (coll : Coll) : SimW R (r.getValue c coll) (s.getValue c coll) := by
  induction coll with
  | nil => exact .raise _
  | cons p l ih =>
    obtain ⟨c', g, v⟩ := p
    unfold Recs.getValue
    by_cases hc : c' = c
    · simp only [hc, if_true]
      refine (h.G g).bind fun a => ?_
      cases a with
      | none => exact .pure _
      | some x => exact .pure _
    · simp only [hc, if_false]
      exact ih.bind fun a => .pure _

include hgv in
theorem wildcardToVariant_sim (ctx : Ctx) (p : Prompt) (m : Option Method) (lo hi : Int) (sep : Str) :
    SimW R (r.wildcardToVariant E ctx p m lo hi sep)
      (s.wildcardToVariant (swapWorld E rng' gv') ctx p m lo hi sep) := by
  unfold Recs.wildcardToVariant
  exact (sampleFirst_sim h ctx p).bind fun a => (hgv a).bind fun b => (SimW.lift _).bind fun c => .pure _

theorem fallback_sim (ctx : Ctx) (p : Prompt) :
    SimW R (r.fallback E ctx p) (s.fallback (swapWorld E rng' gv') ctx p) := by
  unfold Recs.fallback
  refine SimW.bind ?_ (fun a => .pure _)
  cases p with
  | inl t => exact .pure _
  | inr c => exact sampleFirst_sim h ctx _

include hgv in
theorem startG_sim (ctx : Ctx) (c : Cmd) :
    SimW R (startG E r ctx c) (startG (swapWorld E rng' gv') s ctx c) := by
  unfold startG
  cases c with
  | lit t m => exact .pure _
  | seq toks sep m =>
    refine (assigns_sim h ctx toks).bind fun a => ?_
    obtain ⟨toks', new⟩ := a
    cases ctx.method
    · exact (SimW.lift _).bind fun a => .pure _
    · exact (mkColl_sim h _ _).bind fun a => .pure _
    · exact (SimW.lift _).bind fun a => .pure _
  | variant opts lo hi sep m =>
    dsimp only
    split
    · exact .pure _
    · exact (wildcardToVariant_sim hgv h ctx _ _ _ _ _).bind fun a => .pure _
    · cases ctx.method
      · exact .lift _
      · exact .pure _
      · exact .pure _
    · cases ctx.method
      · exact .pure _
      · exact .pure _
      · exact .pure _
  | wild path m vars =>
    refine (sampleFirst_sim h ctx path).bind fun wc => (hgv wc).bind fun vals => ?_
    by_cases hv : vals.isEmpty = true
    · simp only [hv, if_true]; exact fallback_sim h _ _
    · simp only [hv]
      cases ctx.method
      · exact .pure _
      · exact .pure _
      · simp only [sampleGens_swap]
        exact (SimW.lift _).bind fun a => .pure _
  | assign => exact .raise _
  | access => exact .raise _
  | wrap =>
    cases ctx.method
    · exact (SimW.lift _).bind fun a => (SimW.lift _).bind fun b => .pure _
    · simp only [sampleGen_swap]
      exact (SimW.lift _).bind fun a => .pure _
    · exact .raise _

include hd hgv in
theorem stepG_sim (g : Gen) : SimW R (stepG E r g) (stepG (swapWorld E rng' gv') s g) := by
  cases g with
  | done => exact .pure _
  | start ctx c =>
    cases c with
    | lit t m =>
      simp only [stepG]
      cases ctx.method <;> exact .pure _
    | _ => exact (startG_sim hgv h ctx _).bind fun a => h.G a
  | rep => exact .pure _
  | seqNF sep gens => exact (rotate_sim h gens).bind fun a => .pure _
  | randVar ctx opts lo hi sep =>
    refine (randint_sim hd _ _).bind fun k => (chooseWithoutReplacement_sim hd _ _ _).bind fun sel =>
      (SimW.lift _).bind fun gens => ?_
    cases gens with
    | nil => exact .pure _
    | cons g gs => exact (rotate_sim h _).bind fun a => .pure _
  | randWild ctx items buf =>
    simp only [stepG, sampleGen_swap]
    refine (weightedNext_sim hd _ _).bind fun k => (SimW.lift _).bind fun sel => (h.G _).bind fun x => ?_
    cases x with
    | none => exact h.G _
    | some x => exact .pure _
  | zipWrap wg ig =>
    refine (h.G _).bind fun x => ?_
    cases x with
    | none => exact .pure _
    | some x =>
      refine (h.G _).bind fun y => ?_
      cases y with
      | none => exact .pure _
      | some y => exact .pure _
  | cycVar sep q =>
    cases q with
    | nil => exact .diverge
    | cons a q =>
      refine (h.A _).bind fun x => ?_
      cases x with
      | none => exact .raise _
      | some y => exact .pure _
  | cycWild q =>
    cases q with
    | nil => exact .pure _
    | cons a q => exact (next!_sim h _).bind fun x => .pure _
  | combSeq sep coll fr =>
    refine (h.S _ _).bind fun x => ?_
    obtain ⟨coll, _ | ⟨vs, fr⟩⟩ := x
    · exact .pure _
    · exact .pure _
  | combVar ctx sep seen pend =>
    cases pend with
    | nil => exact .pure _
    | cons a q => exact h.G _
  | combVarIn ctx sep seen pend b fr =>
    refine (h.P _).bind fun x => ?_
    cases x with
    | none => exact h.G _
    | some x =>
      dsimp only
      split
      · exact .pure _
      · exact h.G _
  | combWild ctx vals cur =>
    refine (h.G _).bind fun x => ?_
    cases x with
    | some x => exact .pure _
    | none =>
      cases vals with
      | nil => exact .pure _
      | cons v vals =>
        simp only [sampleGen_swap]
        exact (SimW.lift _).bind fun g => h.G _
  | combWrap ctx inner wg =>
    refine (h.G _).bind fun x => ?_
    cases x with
    | none => exact .pure _
    | some x =>
      simp only [sampleGen_swap]
      exact (SimW.lift _).bind fun g => h.G _
  | combWrapIn ctx inner wg w ig =>
    refine (h.G _).bind fun x => ?_
    cases x with
    | none => exact h.G _
    | some x => exact .pure _
  | squash g =>
    refine (h.G _).bind fun x => ?_
    cases x with
    | none => exact .pure _
    | some x => exact .pure _

theorem stepA_sim (a : Arr) : SimW R (stepA E r a) (stepA (swapWorld E rng' gv') s a) := by
  cases a with
  | done => exact .pure _
  | nil => exact .pure _
  | start ctx combo =>
    cases combo with
    | nil => exact .pure _
    | cons c cs => exact (SimW.lift _).bind fun g => h.A _
  | node g rest =>
    refine (h.A _).bind fun x => ?_
    cases x with
    | none => exact .pure _
    | some x =>
      refine (h.G _).bind fun y => ?_
      cases y with
      | none => exact .pure _
      | some y => exact .pure _

theorem stepS_sim (coll : Coll) (f : SFrame) :
    SimW R (stepS E r coll f) (stepS (swapWorld E rng' gv') s coll f) := by
  cases f with
  | done => exact .pure _
  | start ctx cmds =>
    cases cmds with
    | nil => exact .pure _
    | cons c cs =>
      simp only [stepS]
      split
      · exact h.S _ _
      · exact (SimW.lift _).bind fun g => h.S _ _
  | nf c rest =>
    refine (h.S _ _).bind fun x => ?_
    obtain ⟨coll', x⟩ := x
    cases x with
    | none => exact .pure _
    | some x =>
      refine (getValue_sim h _ _).bind fun y => ?_
      obtain ⟨_ | v, coll''⟩ := y
      · exact .pure _
      · exact .pure _
  | fin ctx cs g =>
    refine (h.G _).bind fun x => ?_
    cases x with
    | none => exact .pure _
    | some x => exact h.S _ _
  | finIn ctx cs g v cur =>
    refine (h.S _ _).bind fun x => ?_
    obtain ⟨coll', x⟩ := x
    cases x with
    | none => exact h.S _ _
    | some x => exact .pure _

theorem stepP_sim (f : PFrame) : SimW R (stepP E r f) (stepP (swapWorld E rng' gv') s f) := by
  cases f with
  | done => exact .pure _
  | start ctx cmds =>
    cases cmds with
    | nil => exact .pure _
    | cons c cs =>
      refine (SimW.lift _).bind fun g => ?_
      split
      · exact h.P _
      · exact h.P _
  | nf g rest =>
    refine (h.P _).bind fun x => ?_
    cases x with
    | none => exact .pure _
    | some x => exact (next!_sim h _).bind fun y => .pure _
  | fin ctx cs g =>
    refine (h.G _).bind fun x => ?_
    cases x with
    | none => exact .pure _
    | some x => exact h.P _
  | finIn ctx cs g v cur =>
    refine (h.P _).bind fun x => ?_
    cases x with
    | none => exact h.P _
    | some x => exact .pure _

end

variable {E : Env W} {R : W → W' → Prop} {rng' : Rng W'} {gv' : Str → M W' (List Item)}

theorem recs_sim (hd : SameDraws R E.rng rng') (hgv : ∀ wc, SimW R (E.getValues wc) (gv' wc)) (n : Nat) :
    SimRecs R (recs E n) (recs (swapWorld E rng' gv') n) := by
  induction n with
  | zero => exact ⟨fun _ => .diverge, fun _ => .diverge, fun _ _ => .diverge, fun _ => .diverge⟩
  | succ n ih =>
    exact ⟨fun g => stepG_sim hd hgv ih g, fun a => stepA_sim ih a, fun c f => stepS_sim ih c f,
      fun f => stepP_sim ih f⟩

theorem collect_sim (hd : SameDraws R E.rng rng') (hgv : ∀ wc, SimW R (E.getValues wc) (gv' wc))
    (n k : Nat) (g : Gen) (w : W) (w' : W') (hw : R w w') :
    (collect E n k g w).1 = (collect (swapWorld E rng' gv') n k g w').1 ∧
      SameStop R (collect E n k g w).2 (collect (swapWorld E rng' gv') n k g w').2 := by
  induction k generalizing g w w' with
  | zero => exact ⟨rfl, rfl, hw⟩
  | succ k ih =>
    have h1 := (recs_sim hd hgv n).G g w w' hw
    simp only [collect, nextG]
    cases hx : (recs E n).G g w with
    | ok a w1 =>
      cases hy : (recs (swapWorld E rng' gv') n).G g w' with
      | ok b w2 =>
        rw [hx, hy] at h1
        obtain ⟨rfl, h3⟩ := h1
        cases a with
        | none => exact ⟨rfl, h3⟩
        | some x =>
          have := ih x.2 w1 w2 h3
          exact ⟨by dsimp only; rw [this.1], this.2⟩
      | err e w2 => rw [hx, hy] at h1; exact h1.elim
      | fuel => rw [hx, hy] at h1; exact h1.elim
    | err e w1 =>
      cases hy : (recs (swapWorld E rng' gv') n).G g w' with
      | ok b w2 => rw [hx, hy] at h1; exact h1.elim
      | err e w2 => rw [hx, hy] at h1; exact ⟨rfl, h1⟩
      | fuel => rw [hx, hy] at h1; exact h1.elim
    | fuel =>
      cases hy : (recs (swapWorld E rng' gv') n).G g w' with
      | ok b w2 => rw [hx, hy] at h1; exact h1.elim
      | err e w2 => rw [hx, hy] at h1; exact h1.elim
      | fuel => exact ⟨rfl, trivial⟩

end Verif
