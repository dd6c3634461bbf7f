import Verif.Proofs.Runs
/-! Meaning of generators without fuel: the limit of the approximations. -/

namespace Verif
variable {W α β : Type}

/-- From some fuel on, `x` is `y` (the fuel may depend on the world). -/
def Conv (x : Nat → M W α) (y : M W α) : Prop := ∀ w, Ev fun n => x n w = y w

theorem Conv.const (x : M W α) : Conv (fun _ => x) x := fun _ => Ev.of fun _ => rfl

theorem Conv.bind {x : Nat → M W α} {y : M W α} {f : Nat → α → M W β} {g : α → M W β}
    (hx : Conv x y) (hf : ∀ a, Conv (fun n => f n a) (g a)) :
    Conv (fun n => x n >>= f n) (y >>= g) := by
  intro w
  have h := hx w
  cases hy : y w with
  | ok a w' =>
    rw [hy] at h
    rw [M.bind_of_ok hy]
    exact Ev.bind h (hf a w')
  | err e w' =>
    rw [hy] at h
    rw [M.bind_of_err hy]
    exact Ev.bind_err h
  | fuel =>
    rw [hy] at h
    exact h.mp fun n hn => by
      show (x n >>= f n) w = (y >>= g) w
      rw [M.bind_eq, M.bind_eq, hn, hy]

/-- Convergence of all four tables. -/
structure ConvRecs (r : Nat → Recs W) (s : Recs W) : Prop where
  G : ∀ g, Conv (fun n => (r n).G g) (s.G g)
  A : ∀ a, Conv (fun n => (r n).A a) (s.A a)
  S : ∀ c f, Conv (fun n => (r n).S c f) (s.S c f)
  P : ∀ f, Conv (fun n => (r n).P f) (s.P f)

section lim
variable {r : Nat → Recs W} {s : Recs W} (h : ConvRecs r s)
include h

theorem next!_conv (g : Gen) : Conv (fun n => (r n).next! g) (s.next! g) := by
  unfold Recs.next!
  exact Conv.bind (h.G g) (fun a => Conv.const _)

theorem rotate_conv (gs : List Gen) : Conv (fun n => (r n).rotate gs) (s.rotate gs) := by
  induction gs with
  | nil => exact Conv.const _
  | cons g gs ih =>
    unfold Recs.rotate
    exact Conv.bind (next!_conv h g) (fun a => Conv.bind ih (fun b => Conv.const _))

theorem sampleFirst_conv (E : Env W) (ctx : Ctx) (p : Prompt) :
    Conv (fun n => (r n).sampleFirst E ctx p) (s.sampleFirst E ctx p) := by
  unfold Recs.sampleFirst
  exact Conv.bind (Conv.const _) (fun a => Conv.bind (next!_conv h a) (fun b => Conv.const _))

theorem assign_conv (E : Env W) (ctx : Ctx) (name : Str) (value : Cmd) (i o : Bool) :
    Conv (fun n => (r n).assign E ctx name value i o) (s.assign E ctx name value i o) := by
  unfold Recs.assign
  cases (if o = true then none else List.lookup name ctx.vars) with
  | some v => exact Conv.const _
  | none =>
    cases i with
    | false => exact Conv.const _
    | true =>
      simp only [if_true]
      have key : Conv (fun n => do
          let g ← M.lift (mkGen E.unknown ctx value)
          let (v, _) ← (r n).next! g
          return Cmd.lit v none) (do
          let g ← M.lift (mkGen E.unknown ctx value)
          let (v, _) ← s.next! g
          return Cmd.lit v none) :=
        Conv.bind (Conv.const _) (fun a => Conv.bind (next!_conv h a) (fun b => Conv.const _))
      cases value <;> first | exact Conv.const _ | exact key

theorem assigns_conv (E : Env W) (ctx : Ctx) (cs : List Cmd) :
    Conv (fun n => (r n).assigns E ctx cs) (s.assigns E ctx cs) := by
  induction cs with
  | nil => exact Conv.const _
  | cons c cs ih =>
    cases c <;> simp only [Recs.assigns]
    case assign n v i o =>
      exact Conv.bind (assign_conv h E ctx n v i o) (fun a => Conv.bind ih (fun b => Conv.const _))
    all_goals exact Conv.bind ih (fun b => Conv.const _)

theorem firstValues_conv (l : List (Cmd × Gen)) : Conv (fun n => (r n).firstValues l) (s.firstValues l) := by
  induction l with
  | nil => exact Conv.const _
  | cons p l ih =>
    obtain ⟨c, g⟩ := p
    unfold Recs.firstValues
    exact Conv.bind (next!_conv h g) (fun a => Conv.bind ih (fun b => Conv.const _))

theorem mkColl_conv (E : Env W) (ctx : Ctx) (l : List Cmd) :
    Conv (fun n => (r n).mkColl E ctx l) (s.mkColl E ctx l) := by
  unfold Recs.mkColl
  exact Conv.bind (Conv.const _) (fun a => firstValues_conv h _)

theorem getValue_conv (c : Cmd) (coll : Coll) : Conv (fun n => (r n).getValue c coll) (s.getValue c coll) := by
  induction coll with
  | nil => exact Conv.const _
  | cons p l ih =>
    obtain ⟨c', g, v⟩ := p
    unfold Recs.getValue
    by_cases hc : c' = c
    · simp only [hc, if_true]
      exact Conv.bind (h.G g) (fun a => Conv.const _)
    · simp only [hc, if_false]
      exact Conv.bind ih (fun a => Conv.const _)

theorem wildcardToVariant_conv (E : Env W) (ctx : Ctx) (p : Prompt) (m : Option Method) (lo hi : Int)
    (sep : Str) :
    Conv (fun n => (r n).wildcardToVariant E ctx p m lo hi sep) (s.wildcardToVariant E ctx p m lo hi sep) := by
  unfold Recs.wildcardToVariant
  exact Conv.bind (sampleFirst_conv h E ctx p) (fun a => Conv.const _)

theorem fallback_conv (E : Env W) (ctx : Ctx) (p : Prompt) :
    Conv (fun n => (r n).fallback E ctx p) (s.fallback E ctx p) := by
  unfold Recs.fallback
  refine Conv.bind ?_ (fun a => Conv.const _)
  cases p with
  | inl t => exact Conv.const _
  | inr c => exact sampleFirst_conv h E ctx _

theorem startG_conv (E : Env W) (ctx : Ctx) (c : Cmd) :
    Conv (fun n => startG E (r n) ctx c) (startG E s ctx c) := by
  unfold startG
  cases c with
  | lit t m => exact Conv.const _
  | seq toks sep m =>
    refine Conv.bind (assigns_conv h E ctx toks) (fun a => ?_)
    obtain ⟨toks', new⟩ := a
    cases ctx.method
    · exact Conv.const _
    · exact Conv.bind (mkColl_conv h E _ _) (fun a => Conv.const _)
    · exact Conv.const _
  | variant opts lo hi sep m =>
    dsimp only
    split
    · exact Conv.const _
    · exact Conv.bind (wildcardToVariant_conv h E ctx _ _ _ _ _) (fun a => Conv.const _)
    · exact Conv.const _
    · exact Conv.const _
  | wild path m vars =>
    refine Conv.bind (sampleFirst_conv h E ctx path) (fun wc => ?_)
    refine Conv.bind (Conv.const _) (fun vals => ?_)
    by_cases hv : vals.isEmpty = true
    · simp only [hv, if_true]; exact fallback_conv h E _ _
    · simp only [hv]; exact Conv.const _
  | assign => exact Conv.const _
  | access => exact Conv.const _
  | wrap => exact Conv.const _

theorem stepG_conv (E : Env W) (g : Gen) : Conv (fun n => stepG E (r n) g) (stepG E s g) := by
  cases g with
  | done => exact Conv.const _
  | start ctx c =>
    cases c with
    | lit t m => exact Conv.const _
    | _ => exact Conv.bind (startG_conv h E ctx _) (fun a => h.G a)
  | rep => exact Conv.const _
  | seqNF sep gens => exact Conv.bind (rotate_conv h gens) (fun a => Conv.const _)
  | randVar ctx opts lo hi sep =>
    refine Conv.bind (Conv.const _) (fun k => Conv.bind (Conv.const _) (fun sel =>
      Conv.bind (Conv.const _) (fun gens => ?_)))
    cases gens with
    | nil => exact Conv.const _
    | cons g gs => exact Conv.bind (rotate_conv h _) (fun a => Conv.const _)
  | randWild ctx items buf =>
    refine Conv.bind (Conv.const _) (fun k => Conv.bind (Conv.const _) (fun sel =>
      Conv.bind (h.G _) (fun x => ?_)))
    cases x with
    | none => exact h.G _
    | some x => exact Conv.const _
  | zipWrap wg ig =>
    refine Conv.bind (h.G _) (fun x => ?_)
    cases x with
    | none => exact Conv.const _
    | some x => exact Conv.bind (h.G _) (fun y => Conv.const _)
  | cycVar sep q =>
    cases q with
    | nil => exact Conv.const _
    | cons a q => exact Conv.bind (h.A _) (fun x => Conv.const _)
  | cycWild q =>
    cases q with
    | nil => exact Conv.const _
    | cons a q => exact Conv.bind (next!_conv h _) (fun x => Conv.const _)
  | combSeq sep coll fr => exact Conv.bind (h.S _ _) (fun x => Conv.const _)
  | combVar ctx sep seen pend =>
    cases pend with
    | nil => exact Conv.const _
    | cons a q => exact h.G _
  | combVarIn ctx sep seen pend b fr =>
    refine Conv.bind (h.P _) (fun x => ?_)
    cases x with
    | none => exact h.G _
    | some x =>
      dsimp only
      split
      · exact Conv.const _
      · exact h.G _
  | combWild ctx vals cur =>
    refine Conv.bind (h.G _) (fun x => ?_)
    cases x with
    | some x => exact Conv.const _
    | none =>
      cases vals with
      | nil => exact Conv.const _
      | cons v vals => exact Conv.bind (Conv.const _) (fun g => h.G _)
  | combWrap ctx inner wg =>
    refine Conv.bind (h.G _) (fun x => ?_)
    cases x with
    | none => exact Conv.const _
    | some x => exact Conv.bind (Conv.const _) (fun g => h.G _)
  | combWrapIn ctx inner wg w ig =>
    refine Conv.bind (h.G _) (fun x => ?_)
    cases x with
    | none => exact h.G _
    | some x => exact Conv.const _
  | squash g => exact Conv.bind (h.G _) (fun x => Conv.const _)

theorem stepA_conv (E : Env W) (a : Arr) : Conv (fun n => stepA E (r n) a) (stepA E s a) := by
  cases a with
  | done => exact Conv.const _
  | nil => exact Conv.const _
  | start ctx combo =>
    cases combo with
    | nil => exact Conv.const _
    | cons c cs => exact Conv.bind (Conv.const _) (fun g => h.A _)
  | node g rest =>
    refine Conv.bind (h.A _) (fun x => ?_)
    cases x with
    | none => exact Conv.const _
    | some x => exact Conv.bind (h.G _) (fun y => Conv.const _)

theorem stepS_conv (E : Env W) (coll : Coll) (f : SFrame) :
    Conv (fun n => stepS E (r n) coll f) (stepS E s coll f) := by
  cases f with
  | done => exact Conv.const _
  | start ctx cmds =>
    cases cmds with
    | nil => exact Conv.const _
    | cons c cs =>
      simp only [stepS]
      split
      · exact h.S _ _
      · exact Conv.bind (Conv.const _) (fun g => h.S _ _)
  | nf c rest =>
    refine Conv.bind (h.S _ _) (fun x => ?_)
    obtain ⟨coll', x⟩ := x
    cases x with
    | none => exact Conv.const _
    | some x => exact Conv.bind (getValue_conv h _ _) (fun y => Conv.const _)
  | fin ctx cs g =>
    refine Conv.bind (h.G _) (fun x => ?_)
    cases x with
    | none => exact Conv.const _
    | some x => exact h.S _ _
  | finIn ctx cs g v cur =>
    refine Conv.bind (h.S _ _) (fun x => ?_)
    obtain ⟨coll', x⟩ := x
    cases x with
    | none => exact h.S _ _
    | some x => exact Conv.const _

theorem stepP_conv (E : Env W) (f : PFrame) : Conv (fun n => stepP E (r n) f) (stepP E s f) := by
  cases f with
  | done => exact Conv.const _
  | start ctx cmds =>
    cases cmds with
    | nil => exact Conv.const _
    | cons c cs =>
      refine Conv.bind (Conv.const _) (fun g => ?_)
      split
      · exact h.P _
      · exact h.P _
  | nf g rest =>
    refine Conv.bind (h.P _) (fun x => ?_)
    cases x with
    | none => exact Conv.const _
    | some x => exact Conv.bind (next!_conv h _) (fun y => Conv.const _)
  | fin ctx cs g =>
    refine Conv.bind (h.G _) (fun x => ?_)
    cases x with
    | none => exact Conv.const _
    | some x => exact h.P _
  | finIn ctx cs g v cur =>
    refine Conv.bind (h.P _) (fun x => ?_)
    cases x with
    | none => exact h.P _
    | some x => exact Conv.const _

end lim


theorem exists_limit {x : Nat → M W α} (h : ∀ n m, n ≤ m → M.le (x n) (x m)) (w : W) :
    ∃ o, Ev fun n => x n w = o := by
  by_cases hf : ∀ n, x n w = .fuel
  · exact ⟨.fuel, Ev.of hf⟩
  · simp only [not_forall] at hf
    obtain ⟨N, hN⟩ := hf
    refine ⟨x N w, N, fun n hn => ?_⟩
    rcases h N n hn w with h' | h'
    · exact absurd h' hN
    · exact h'.symm

/-- The limit of an increasing sequence of approximations. -/
noncomputable def limit (x : Nat → M W α) (h : ∀ n m, n ≤ m → M.le (x n) (x m)) : M W α :=
  fun w => (exists_limit h w).choose

theorem limit_conv (x : Nat → M W α) (h : ∀ n m, n ≤ m → M.le (x n) (x m)) : Conv x (limit x h) :=
  fun w => (exists_limit h w).choose_spec

/-- `next` with as much fuel as it takes. -/
noncomputable def lim (E : Env W) : Recs W where
  G g := limit (fun n => (recs E n).G g) fun _ _ h => (recs_le E h).G g
  A a := limit (fun n => (recs E n).A a) fun _ _ h => (recs_le E h).A a
  S c f := limit (fun n => (recs E n).S c f) fun _ _ h => (recs_le E h).S c f
  P f := limit (fun n => (recs E n).P f) fun _ _ h => (recs_le E h).P f

theorem lim_conv (E : Env W) : ConvRecs (recs E) (lim E) :=
  ⟨fun g => limit_conv (fun n => (recs E n).G g) fun _ _ h => (recs_le E h).G g,
   fun a => limit_conv (fun n => (recs E n).A a) fun _ _ h => (recs_le E h).A a,
   fun c f => limit_conv (fun n => (recs E n).S c f) fun _ _ h => (recs_le E h).S c f,
   fun f => limit_conv (fun n => (recs E n).P f) fun _ _ h => (recs_le E h).P f⟩

theorem Conv.unique {x : Nat → M W α} {y z : M W α} (hy : Conv x y) (hz : Conv x z) : y = z := by
  funext w
  obtain ⟨N, hN⟩ := hy w
  obtain ⟨N', hN'⟩ := hz w
  rw [← hN (max N N') (by omega), hN' (max N N') (by omega)]

theorem Conv.shift {x : Nat → M W α} {y : M W α} (h : Conv x y) : Conv (fun n => x (n + 1)) y := by
  intro w
  obtain ⟨N, hN⟩ := h w
  exact ⟨N, fun n hn => hN (n + 1) (by omega)⟩

/-- The limit satisfies the recursive equations without fuel. -/
theorem lim_G (E : Env W) (g : Gen) : (lim E).G g = stepG E (lim E) g :=
  ((lim_conv E).G g).shift.unique (stepG_conv (lim_conv E) E g)

theorem lim_A (E : Env W) (a : Arr) : (lim E).A a = stepA E (lim E) a :=
  ((lim_conv E).A a).shift.unique (stepA_conv (lim_conv E) E a)

theorem nextG_iff {E : Env W} {g : Gen} {w : W} {o} : NextG E g w o ↔ (lim E).G g w = o := by
  have h := (lim_conv E).G g w
  constructor
  · intro h'
    exact NextG.unique h h'
  · rintro rfl; exact h

/-- An answer found with some fuel is the answer. -/
theorem lim_of_fuel {E : Env W} {n : Nat} {g : Gen} {w : W} (h : nextG E n g w ≠ .fuel) :
    (lim E).G g w = nextG E n g w :=
  nextG_iff.1 ⟨n, fun _ hm => nextG_fuel_mono E hm g w h⟩

end Verif
