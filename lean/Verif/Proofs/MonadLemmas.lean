import Verif.Model.Engine
/-! Inversion lemmas for `M`, and independence of the fuel. -/

namespace Verif
variable {W α β : Type}

namespace M

@[simp] theorem pure_eq (a : α) (w : W) : (Pure.pure a : M W α) w = .ok a w := rfl
@[simp] theorem mpure_eq (a : α) (w : W) : (M.pure a : M W α) w = .ok a w := rfl
@[simp] theorem raise_eq (e : Err) (w : W) : (M.raise e : M W α) w = .err e w := rfl
@[simp] theorem diverge_eq (w : W) : (M.diverge : M W α) w = .fuel := rfl
@[simp] theorem lift_ok (a : α) (w : W) : (M.lift (.ok a) : M W α) w = .ok a w := rfl
@[simp] theorem lift_error (e : Err) (w : W) : (M.lift (.error e) : M W α) w = .err e w := rfl

theorem bind_eq (x : M W α) (f : α → M W β) (w : W) :
    (x >>= f) w = match x w with
      | .ok a w' => f a w'
      | .err e w' => .err e w'
      | .fuel => .fuel := rfl

theorem bind_ok {x : M W α} {f : α → M W β} {w : W} {b : β} {w'' : W} :
    (x >>= f) w = .ok b w'' ↔ ∃ a w', x w = .ok a w' ∧ f a w' = .ok b w'' := by
  rw [bind_eq]
  cases h : x w with
  | ok a w' =>
    constructor
    · intro h'; exact ⟨a, w', rfl, h'⟩
    · rintro ⟨a', w1, h1, h2⟩; cases h1; exact h2
  | err e w' => simp
  | fuel => simp

theorem bind_of_ok {x : M W α} {f : α → M W β} {w : W} {a : α} {w' : W} (h : x w = .ok a w') :
    (x >>= f) w = f a w' := by rw [bind_eq, h]

theorem bind_of_err {x : M W α} {f : α → M W β} {w : W} {e : Err} {w' : W} (h : x w = .err e w') :
    (x >>= f) w = .err e w' := by rw [bind_eq, h]

theorem lift_ok_iff {x : Except Err α} {w w' : W} {a : α} :
    (M.lift x : M W α) w = .ok a w' ↔ x = .ok a ∧ w' = w := by
  cases x <;> simp [M.lift, M.raise, M.pure, eq_comm]

theorem pure_ok_iff {a b : α} {w w' : W} :
    (Pure.pure a : M W α) w = .ok b w' ↔ a = b ∧ w = w' := by simp

theorem mpure_bind (a : α) (f : α → M W β) : (Pure.pure a : M W α) >>= f = f a := rfl

/-- `x` answers whenever `y` does not contradict it: equal, or no answer yet. -/
def le (x y : M W α) : Prop := ∀ w, x w = .fuel ∨ x w = y w

theorem le_refl (x : M W α) : le x x := fun _ => Or.inr rfl

theorem le_trans {x y z : M W α} (h1 : le x y) (h2 : le y z) : le x z := by
  intro w
  rcases h1 w with h | h
  · exact Or.inl h
  · rw [h]; exact h2 w

theorem diverge_le (y : M W α) : le M.diverge y := fun _ => Or.inl rfl

theorem bind_le {x y : M W α} {f g : α → M W β} (hx : le x y) (hf : ∀ a, le (f a) (g a)) :
    le (x >>= f) (y >>= g) := by
  intro w
  rw [bind_eq, bind_eq]
  rcases hx w with h | h
  · rw [h]; exact Or.inl rfl
  · rw [h]
    cases y w with
    | ok a w' => exact hf a w'
    | err e w' => exact Or.inr rfl
    | fuel => exact Or.inr rfl

end M

/-- Pointwise order on `Recs`. -/
structure Recs.le (r s : Recs W) : Prop where
  G : ∀ g, M.le (r.G g) (s.G g)
  A : ∀ a, M.le (r.A a) (s.A a)
  S : ∀ c f, M.le (r.S c f) (s.S c f)
  P : ∀ f, M.le (r.P f) (s.P f)

section mono
variable {r s : Recs W} (h : Recs.le r s)
include h

theorem next!_mono (g : Gen) : M.le (r.next! g) (s.next! g) := by
  unfold Recs.next!
  exact M.bind_le (h.G g) (fun a => M.le_refl _)

theorem rotate_mono (gs : List Gen) : M.le (r.rotate gs) (s.rotate gs) := by
  induction gs with
  | nil => exact M.le_refl _
  | cons g gs ih =>
    unfold Recs.rotate
    exact M.bind_le (next!_mono h g) (fun a => M.bind_le ih (fun b => M.le_refl _))

theorem sampleFirst_mono (E : Env W) (ctx : Ctx) (p : Prompt) :
    M.le (r.sampleFirst E ctx p) (s.sampleFirst E ctx p) := by
  unfold Recs.sampleFirst
  exact M.bind_le (M.le_refl _) (fun a => M.bind_le (next!_mono h a) (fun b => M.le_refl _))

theorem assign_mono (E : Env W) (ctx : Ctx) (name : Str) (value : Cmd) (i o : Bool) :
    M.le (r.assign E ctx name value i o) (s.assign E ctx name value i o) := by
  unfold Recs.assign
  cases (if o = true then none else List.lookup name ctx.vars) with
  | some v => exact M.le_refl _
  | none =>
    cases i with
    | false => exact M.le_refl _
    | true =>
      simp only [if_true]
      have key : M.le (do
          let g ← M.lift (mkGen E.unknown ctx value)
          let (v, _) ← r.next! g
          return Cmd.lit v none) (do
          let g ← M.lift (mkGen E.unknown ctx value)
          let (v, _) ← s.next! g
          return Cmd.lit v none) :=
        M.bind_le (M.le_refl _) (fun a => M.bind_le (next!_mono h a) (fun b => M.le_refl _))
      cases value <;> first | exact M.le_refl _ | exact key

theorem assigns_mono (E : Env W) (ctx : Ctx) (cs : List Cmd) :
    M.le (r.assigns E ctx cs) (s.assigns E ctx cs) := by
  induction cs with
  | nil => exact M.le_refl _
  | cons c cs ih =>
    cases c <;> simp only [Recs.assigns]
    case assign n v i o =>
      exact M.bind_le (assign_mono h E ctx n v i o) (fun a => M.bind_le ih (fun b => M.le_refl _))
    all_goals exact M.bind_le ih (fun b => M.le_refl _)

theorem firstValues_mono (l : List (Cmd × Gen)) : M.le (r.firstValues l) (s.firstValues l) := by
  induction l with
  | nil => exact M.le_refl _
  | cons p l ih =>
    obtain ⟨c, g⟩ := p
    unfold Recs.firstValues
    exact M.bind_le (next!_mono h g) (fun a => M.bind_le ih (fun b => M.le_refl _))

theorem mkColl_mono (E : Env W) (ctx : Ctx) (l : List Cmd) :
    M.le (r.mkColl E ctx l) (s.mkColl E ctx l) := by
  unfold Recs.mkColl
  exact M.bind_le (M.le_refl _) (fun a => firstValues_mono h _)

theorem getValue_mono (c : Cmd) (coll : Coll) : M.le (r.getValue c coll) (s.getValue c coll) := by
  induction coll with
  | nil => exact M.le_refl _
  | cons p l ih =>
    obtain ⟨c', g, v⟩ := p
    unfold Recs.getValue
    by_cases hc : c' = c
    · simp only [hc, if_true]
      exact M.bind_le (h.G g) (fun a => M.le_refl _)
    · simp only [hc, if_false]
      exact M.bind_le ih (fun a => M.le_refl _)

theorem wildcardToVariant_mono (E : Env W) (ctx : Ctx) (p : Prompt) (m : Option Method) (lo hi : Int)
    (sep : Str) :
    M.le (r.wildcardToVariant E ctx p m lo hi sep) (s.wildcardToVariant E ctx p m lo hi sep) := by
  unfold Recs.wildcardToVariant
  exact M.bind_le (sampleFirst_mono h E ctx p) (fun a => M.le_refl _)

theorem fallback_mono (E : Env W) (ctx : Ctx) (p : Prompt) :
    M.le (r.fallback E ctx p) (s.fallback E ctx p) := by
  unfold Recs.fallback
  refine M.bind_le ?_ (fun a => M.le_refl _)
  cases p with
  | inl t => exact M.le_refl _
  | inr c => exact sampleFirst_mono h E ctx _

theorem startG_mono (E : Env W) (ctx : Ctx) (c : Cmd) :
    M.le (startG E r ctx c) (startG E s ctx c) := by
  unfold startG
  cases c with
  | lit t m => exact M.le_refl _
  | seq toks sep m =>
    refine M.bind_le (assigns_mono h E ctx toks) (fun a => ?_)
    obtain ⟨toks', new⟩ := a
    cases ctx.method
    · exact M.le_refl _
    · exact M.bind_le (mkColl_mono h E _ _) (fun a => M.le_refl _)
    · exact M.le_refl _
  | variant opts lo hi sep m =>
    dsimp only
    split
    · exact M.le_refl _
    · exact M.bind_le (wildcardToVariant_mono h E ctx _ _ _ _ _) (fun a => M.le_refl _)
    · exact M.le_refl _
    · exact M.le_refl _
  | wild path m vars =>
    refine M.bind_le (sampleFirst_mono h E ctx path) (fun wc => ?_)
    refine M.bind_le (M.le_refl _) (fun vals => ?_)
    by_cases hv : vals.isEmpty = true
    · simp only [hv, if_true]; exact fallback_mono h E _ _
    · simp only [hv]; exact M.le_refl _
  | assign => exact M.le_refl _
  | access => exact M.le_refl _
  | wrap => exact M.le_refl _

theorem stepG_mono (E : Env W) (g : Gen) : M.le (stepG E r g) (stepG E s g) := by
  cases g with
  | done => exact M.le_refl _
  | start ctx c =>
    cases c with
    | lit t m => exact M.le_refl _
    | _ => exact M.bind_le (startG_mono h E ctx _) (fun a => h.G a)
  | rep => exact M.le_refl _
  | seqNF sep gens => exact M.bind_le (rotate_mono h gens) (fun a => M.le_refl _)
  | randVar ctx opts lo hi sep =>
    refine M.bind_le (M.le_refl _) (fun k => M.bind_le (M.le_refl _) (fun sel =>
      M.bind_le (M.le_refl _) (fun gens => ?_)))
    cases gens with
    | nil => exact M.le_refl _
    | cons g gs => exact M.bind_le (rotate_mono h _) (fun a => M.le_refl _)
  | randWild ctx items buf =>
    refine M.bind_le (M.le_refl _) (fun k => M.bind_le (M.le_refl _) (fun sel =>
      M.bind_le (h.G _) (fun x => ?_)))
    cases x with
    | none => exact h.G _
    | some x => exact M.le_refl _
  | zipWrap wg ig =>
    refine M.bind_le (h.G _) (fun x => ?_)
    cases x with
    | none => exact M.le_refl _
    | some x => exact M.bind_le (h.G _) (fun y => M.le_refl _)
  | cycVar sep q =>
    cases q with
    | nil => exact M.le_refl _
    | cons a q => exact M.bind_le (h.A _) (fun x => M.le_refl _)
  | cycWild q =>
    cases q with
    | nil => exact M.le_refl _
    | cons a q => exact M.bind_le (next!_mono h _) (fun x => M.le_refl _)
  | combSeq sep coll fr => exact M.bind_le (h.S _ _) (fun x => M.le_refl _)
  | combVar ctx sep seen pend =>
    cases pend with
    | nil => exact M.le_refl _
    | cons a q => exact h.G _
  | combVarIn ctx sep seen pend b fr =>
    refine M.bind_le (h.P _) (fun x => ?_)
    cases x with
    | none => exact h.G _
    | some x =>
      dsimp only
      split
      · exact M.le_refl _
      · exact h.G _
  | combWild ctx vals cur =>
    refine M.bind_le (h.G _) (fun x => ?_)
    cases x with
    | some x => exact M.le_refl _
    | none =>
      cases vals with
      | nil => exact M.le_refl _
      | cons v vals => exact M.bind_le (M.le_refl _) (fun g => h.G _)
  | combWrap ctx inner wg =>
    refine M.bind_le (h.G _) (fun x => ?_)
    cases x with
    | none => exact M.le_refl _
    | some x => exact M.bind_le (M.le_refl _) (fun g => h.G _)
  | combWrapIn ctx inner wg w ig =>
    refine M.bind_le (h.G _) (fun x => ?_)
    cases x with
    | none => exact h.G _
    | some x => exact M.le_refl _
  | squash g => exact M.bind_le (h.G _) (fun x => M.le_refl _)

theorem stepA_mono (E : Env W) (a : Arr) : M.le (stepA E r a) (stepA E s a) := by
  cases a with
  | done => exact M.le_refl _
  | nil => exact M.le_refl _
  | start ctx combo =>
    cases combo with
    | nil => exact M.le_refl _
    | cons c cs => exact M.bind_le (M.le_refl _) (fun g => h.A _)
  | node g rest =>
    refine M.bind_le (h.A _) (fun x => ?_)
    cases x with
    | none => exact M.le_refl _
    | some x => exact M.bind_le (h.G _) (fun y => M.le_refl _)

theorem stepS_mono (E : Env W) (coll : Coll) (f : SFrame) :
    M.le (stepS E r coll f) (stepS E s coll f) := by
  cases f with
  | done => exact M.le_refl _
  | start ctx cmds =>
    cases cmds with
    | nil => exact M.le_refl _
    | cons c cs =>
      simp only [stepS]
      split
      · exact h.S _ _
      · exact M.bind_le (M.le_refl _) (fun g => h.S _ _)
  | nf c rest =>
    refine M.bind_le (h.S _ _) (fun x => ?_)
    obtain ⟨coll', x⟩ := x
    cases x with
    | none => exact M.le_refl _
    | some x => exact M.bind_le (getValue_mono h _ _) (fun y => M.le_refl _)
  | fin ctx cs g =>
    refine M.bind_le (h.G _) (fun x => ?_)
    cases x with
    | none => exact M.le_refl _
    | some x => exact h.S _ _
  | finIn ctx cs g v cur =>
    refine M.bind_le (h.S _ _) (fun x => ?_)
    obtain ⟨coll', x⟩ := x
    cases x with
    | none => exact h.S _ _
    | some x => exact M.le_refl _

theorem stepP_mono (E : Env W) (f : PFrame) : M.le (stepP E r f) (stepP E s f) := by
  cases f with
  | done => exact M.le_refl _
  | start ctx cmds =>
    cases cmds with
    | nil => exact M.le_refl _
    | cons c cs =>
      refine M.bind_le (M.le_refl _) (fun g => ?_)
      split
      · exact h.P _
      · exact h.P _
  | nf g rest =>
    refine M.bind_le (h.P _) (fun x => ?_)
    cases x with
    | none => exact M.le_refl _
    | some x => exact M.bind_le (next!_mono h _) (fun y => M.le_refl _)
  | fin ctx cs g =>
    refine M.bind_le (h.G _) (fun x => ?_)
    cases x with
    | none => exact M.le_refl _
    | some x => exact h.P _
  | finIn ctx cs g v cur =>
    refine M.bind_le (h.P _) (fun x => ?_)
    cases x with
    | none => exact h.P _
    | some x => exact M.le_refl _

end mono

theorem recs_le_succ (E : Env W) (n : Nat) : Recs.le (recs E n) (recs E (n + 1)) := by
  induction n with
  | zero => exact ⟨fun _ => M.diverge_le _, fun _ => M.diverge_le _, fun _ _ => M.diverge_le _,
      fun _ => M.diverge_le _⟩
  | succ n ih => exact ⟨stepG_mono ih E, stepA_mono ih E, stepS_mono ih E, stepP_mono ih E⟩

theorem Recs.le_trans {r s t : Recs W} (h1 : Recs.le r s) (h2 : Recs.le s t) : Recs.le r t :=
  ⟨fun g => M.le_trans (h1.G g) (h2.G g), fun g => M.le_trans (h1.A g) (h2.A g),
   fun c g => M.le_trans (h1.S c g) (h2.S c g), fun g => M.le_trans (h1.P g) (h2.P g)⟩

/-- More fuel never changes an answer. -/
theorem recs_le (E : Env W) {n m : Nat} (h : n ≤ m) : Recs.le (recs E n) (recs E m) := by
  induction h with
  | refl => exact ⟨fun _ => M.le_refl _, fun _ => M.le_refl _, fun _ _ => M.le_refl _,
      fun _ => M.le_refl _⟩
  | step _ ih => exact Recs.le_trans ih (recs_le_succ E _)

theorem nextG_fuel_mono (E : Env W) {n m : Nat} (h : n ≤ m) (g : Gen) (w : W)
    (ha : nextG E n g w ≠ .fuel) : nextG E m g w = nextG E n g w := by
  rcases (recs_le E h).G g w with h' | h'
  · exact absurd h' ha
  · exact h'.symm

end Verif
