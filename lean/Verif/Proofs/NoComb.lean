import Verif.Proofs.VarChain
import Verif.Proofs.Distinct
/-! No combinatorial sampler runs below a non-finite one. -/

namespace Verif
open Spec
variable {W : Type} {E : Env W}

mutual
/-- The generator contains no combinatorial part. -/
inductive NC : Gen → Prop
  | done : NC .done
  | start {ctx c} : ctx.method ≠ .comb → NC (.start ctx c)
  | rep {s} : NC (.rep s)
  | seqNF {sep gens} : NCL gens → NC (.seqNF sep gens)
  | randVar {ctx opts lo hi sep} : ctx.method ≠ .comb → NC (.randVar ctx opts lo hi sep)
  | randWild {ctx items buf} : ctx.method ≠ .comb → NC (.randWild ctx items buf)
  | zipWrap {wg ig} : NC wg → NC ig → NC (.zipWrap wg ig)
  | cycVar {sep q} : NCAL q → NC (.cycVar sep q)
  | cycWild {q} : NCL q → NC (.cycWild q)
  | squash {g} : NC g → NC (.squash g)
inductive NCL : List Gen → Prop
  | nil : NCL []
  | cons {g gs} : NC g → NCL gs → NCL (g :: gs)
inductive NCA : Arr → Prop
  | done : NCA .done
  | start {ctx combo} : ctx.method ≠ .comb → NCA (.start ctx combo)
  | nil : NCA .nil
  | node {g rest} : NC g → NCA rest → NCA (.node g rest)
inductive NCAL : List Arr → Prop
  | nil : NCAL []
  | cons {g gs} : NCA g → NCAL gs → NCAL (g :: gs)
end

theorem NCL.append {xs ys : List Gen} (hx : NCL xs) (hy : NCL ys) : NCL (xs ++ ys) := by
  match hx with
  | .nil => exact hy
  | .cons h h' => exact .cons h (NCL.append h' hy)

theorem NCAL.append {xs ys : List Arr} (hx : NCAL xs) (hy : NCAL ys) : NCAL (xs ++ ys) := by
  match hx with
  | .nil => exact hy
  | .cons h h' => exact .cons h (NCAL.append h' hy)

theorem effMethod_ne_comb {m : Method} (h : m ≠ .comb) (o : Option Method) : effMethod m o ≠ .comb := by
  rw [effMethod_eq_nest]
  rcases o with _ | o
  · exact h
  · simp only [nest]
    split
    · exact h
    · rename_i h'; exact fun e => h' ⟨e, h⟩

theorem outcomeGen_ok {ctx : Ctx} {o : Outcome} {g : Gen} (h : outcomeGen ctx o = .ok g) :
    ∃ b c, o = .target b c ∧ g = .start ⟨effMethod ctx.method c.method, ctx.vars, b⟩ c := by
  cases o with
  | target b c =>
    refine ⟨b, c, rfl, ?_⟩
    cases c with
    | assign => cases h
    | wrap =>
      simp only [outcomeGen] at h
      split at h
      · cases h
      · exact (Except.ok.inj h).symm
    | _ => exact (Except.ok.inj h).symm
  | recursion n => cases h
  | undefined n => cases h

theorem mkGen_NC {u : Option Cmd} {ctx : Ctx} {c : Cmd} {g : Gen} (hm : ctx.method ≠ .comb)
    (h : mkGen u ctx c = .ok g) : NC g := by
  obtain ⟨o, ho⟩ := chain_total u ctx.vars ctx.being c
  rw [mkGen_outcome ho] at h
  obtain ⟨b, c', -, rfl⟩ := outcomeGen_ok h
  exact .start (effMethod_ne_comb hm _)

theorem mkGens_NC {u : Option Cmd} {ctx : Ctx} {cs : List Cmd} {gs : List Gen}
    (hm : ctx.method ≠ .comb) (h : mkGens u ctx cs = .ok gs) : NCL gs := by
  induction cs generalizing gs with
  | nil => cases h; exact .nil
  | cons c cs ih =>
    unfold mkGens at h
    cases h1 : mkGen u ctx c with
    | error e => rw [h1] at h; cases h
    | ok g =>
      rw [h1] at h
      cases h2 : mkGens u ctx cs with
      | error e => rw [h2] at h; cases h
      | ok gs' => rw [h2] at h; cases h; exact .cons (mkGen_NC hm h1) (ih h2)

theorem sampleGen_NC {ctx : Ctx} {p : Prompt} {g : Gen} (hm : ctx.method ≠ .comb)
    (h : sampleGen E ctx p = .ok g) : NC g := by
  have key : ∀ c, (match mkGen E.unknown ctx c with
        | .error e => .error e
        | .ok g => .ok (if E.ignoreWs then .squash g else g) : Except Err Gen) = .ok g → NC g := by
    intro c h
    cases h1 : mkGen E.unknown ctx c with
    | error e => rw [h1] at h; cases h
    | ok g' =>
      rw [h1] at h; cases h
      have := mkGen_NC hm h1
      split
      · exact .squash this
      · exact this
  cases p with
  | inl s =>
    simp only [sampleGen] at h
    split at h
    · cases h; exact .done
    · cases h1 : E.parse s with
      | error e => rw [h1] at h; cases h
      | ok c => rw [h1] at h; exact key c h
  | inr c =>
    simp only [sampleGen] at h
    split at h
    · cases h; exact .done
    · exact key c h

theorem sampleGens_NC {ctx : Ctx} {ps : List Str} {gs : List Gen} (hm : ctx.method ≠ .comb)
    (h : sampleGens E ctx ps = .ok gs) : NCL gs := by
  induction ps generalizing gs with
  | nil => cases h; exact .nil
  | cons p ps ih =>
    unfold sampleGens at h
    cases h1 : sampleGen E ctx (.inl p) with
    | error e => rw [h1] at h; cases h
    | ok g =>
      rw [h1] at h
      cases h2 : sampleGens E ctx ps with
      | error e => rw [h2] at h; cases h
      | ok gs' => rw [h2] at h; cases h; exact .cons (sampleGen_NC hm h1) (ih h2)

/-- `x` and `y` do the same, and their results satisfy `P`. -/
def Agree {α : Type} (P : α → Prop) (x y : M W α) : Prop :=
  ∀ w, x w = y w ∧ ∀ a w', x w = .ok a w' → P a

section agree
variable {α β : Type}

theorem Agree.refl {P : α → Prop} {x : M W α} (h : ∀ w a w', x w = .ok a w' → P a) : Agree P x x :=
  fun w => ⟨rfl, h w⟩

theorem Agree.any (x : M W α) : Agree (fun _ => True) x x := .refl fun _ _ _ _ => trivial

theorem Agree.pure {P : α → Prop} {a : α} (h : P a) : Agree P (Pure.pure a : M W α) (Pure.pure a) := by
  refine .refl fun w b w' hb => ?_
  simp only [M.pure_eq, Res.ok.injEq] at hb
  exact hb.1 ▸ h

theorem Agree.raise {P : α → Prop} (e : Err) : Agree P (M.raise e : M W α) (M.raise e) :=
  .refl fun _ _ _ h => by cases h

theorem Agree.diverge {P : α → Prop} : Agree P (M.diverge : M W α) M.diverge :=
  .refl fun _ _ _ h => by cases h

theorem Agree.lift {P : α → Prop} {x : Except Err α} (h : ∀ a, x = .ok a → P a) :
    Agree P (M.lift x : M W α) (M.lift x) :=
  .refl fun _ _ _ ha => h _ (M.lift_ok_iff.1 ha).1

theorem Agree.bind {P : α → Prop} {Q : β → Prop} {x y : M W α} {f g : α → M W β}
    (hx : Agree P x y) (hf : ∀ a, P a → Agree Q (f a) (g a)) : Agree Q (x >>= f) (y >>= g) := by
  intro w
  obtain ⟨h1, h2⟩ := hx w
  rw [M.bind_eq, M.bind_eq, ← h1]
  cases hxw : x w with
  | ok a w' => exact hf a (h2 a w' hxw) w'
  | err e w' => exact ⟨rfl, fun _ _ h => by cases h⟩
  | fuel => exact ⟨rfl, fun _ _ h => by cases h⟩

end agree

/-- What an answer of `next` leaves behind satisfies `P`. -/
def After {α γ : Type} (P : γ → Prop) : Option (α × γ) → Prop
  | none => True
  | some x => P x.2

structure AgreeNC (r s : Recs W) : Prop where
  G : ∀ g, NC g → Agree (After NC) (r.G g) (s.G g)
  A : ∀ a, NCA a → Agree (After NCA) (r.A a) (s.A a)

section
variable {r s : Recs W} (hr : AgreeNC r s)
include hr

theorem next!_NC {g : Gen} (hg : NC g) :
    Agree (fun x => NC x.2) (r.next! g) (s.next! g) := by
  unfold Recs.next!
  refine (hr.G g hg).bind fun a ha => ?_
  cases a with
  | none => exact .raise _
  | some x => exact .pure ha

theorem rotate_NC {gs : List Gen} (hg : NCL gs) :
    Agree (fun x => NCL x.2) (r.rotate gs) (s.rotate gs) := by
  match hg with
  | .nil => exact .pure .nil
  | .cons h h' =>
    unfold Recs.rotate
    exact (next!_NC hr h).bind fun x hx => (rotate_NC h').bind fun y hy => .pure (.cons hx hy)

theorem sampleFirst_NC {ctx : Ctx} (hm : ctx.method ≠ .comb) (p : Prompt) :
    Agree (fun _ => True) (r.sampleFirst E ctx p) (s.sampleFirst E ctx p) := by
  unfold Recs.sampleFirst
  exact (Agree.lift fun a ha => sampleGen_NC hm ha).bind fun g hg =>
    (next!_NC hr hg).bind fun _ _ => .pure trivial

theorem assign_NC {ctx : Ctx} (hm : ctx.method ≠ .comb) (name : Str) (value : Cmd) (i o : Bool) :
    Agree (fun _ => True) (r.assign E ctx name value i o) (s.assign E ctx name value i o) := by
  unfold Recs.assign
  cases (if o = true then none else List.lookup name ctx.vars) with
  | some v => exact .any _
  | none =>
    cases i with
    | false => exact .any _
    | true =>
      simp only [if_true]
      have key : Agree (fun _ => True) (do
          let g ← M.lift (mkGen E.unknown ctx value)
          let (v, _) ← r.next! g
          return Cmd.lit v none) (do
          let g ← M.lift (mkGen E.unknown ctx value)
          let (v, _) ← s.next! g
          return Cmd.lit v none) :=
        (Agree.lift fun a ha => mkGen_NC hm ha).bind fun g hg =>
          (next!_NC hr hg).bind fun _ _ => .pure trivial
      cases value <;> first | exact Agree.any _ | exact key

theorem assigns_NC {ctx : Ctx} (hm : ctx.method ≠ .comb) (cs : List Cmd) :
    Agree (fun _ => True) (r.assigns E ctx cs) (s.assigns E ctx cs) := by
  induction cs with
  | nil => exact .any _
  | cons c cs ih =>
    cases c <;> simp only [Recs.assigns]
    case assign n v i o =>
      exact (assign_NC hr hm n v i o).bind fun a _ => ih.bind fun b _ => .any _
    all_goals exact ih.bind fun b _ => .any _

theorem startG_NC {ctx : Ctx} (hm : ctx.method ≠ .comb) (c : Cmd) :
    Agree NC (startG E r ctx c) (startG E s ctx c) := by
  unfold startG
  have hcyc : ∀ l : List (Nat × List Cmd), NCAL (l.map fun p => Arr.start ctx p.2) := by
    intro l
    induction l with
    | nil => exact .nil
    | cons a l ih => exact .cons (.start hm) ih
  cases c with
  | lit t m => exact .pure .rep
  | seq toks sep m =>
    refine (assigns_NC hr hm toks).bind fun a _ => ?_
    obtain ⟨toks', new⟩ := a
    have key : Agree NC (do
          let gens ← M.lift (mkGens E.unknown (ctx.withVars new) toks')
          return .seqNF sep gens : M W Gen) (do
          let gens ← M.lift (mkGens E.unknown (ctx.withVars new) toks')
          return .seqNF sep gens) :=
      (Agree.lift fun gs hgs => mkGens_NC (ctx := ctx.withVars new) hm hgs).bind fun gs hgs =>
        .pure (.seqNF hgs)
    cases h : ctx.method with
    | comb => exact absurd h hm
    | random => exact key
    | cyc => exact key
  | variant opts lo hi sep m =>
    dsimp only
    split
    · exact .pure .done
    · unfold Recs.wildcardToVariant
      refine Agree.bind (P := fun _ => True) ?_ fun v _ => .pure (.start hm)
      exact (sampleFirst_NC hr hm _).bind fun wc _ => .any _
    · cases h : ctx.method with
      | comb => exact absurd h hm
      | random => exact .lift fun g hg => mkGen_NC hm hg
      | cyc => exact .pure (.cycVar (hcyc _))
    · cases h : ctx.method with
      | comb => exact absurd h hm
      | random => exact .pure (.randVar hm)
      | cyc => exact .pure (.cycVar (hcyc _))
  | wild path m vars =>
    refine (sampleFirst_NC hr hm path).bind fun wc _ => ?_
    refine (Agree.any _).bind fun vals _ => ?_
    by_cases hv : vals.isEmpty = true
    · simp only [hv, if_true]
      unfold Recs.fallback
      refine Agree.bind (P := fun _ => True) ?_ fun v _ => .pure .rep
      cases path with
      | inl t => exact .any _
      | inr c => exact sampleFirst_NC hr (ctx := ctx.withVars vars) hm _
    · simp only [hv]
      cases h : ctx.method with
      | comb => exact absurd h hm
      | random => exact .pure (.randWild (by rw [Ctx.withVars]; exact hm))
      | cyc =>
        exact (Agree.lift fun gs hgs => sampleGens_NC (ctx := ctx.withVars vars) hm hgs).bind
          fun gs hgs => .pure (.cycWild hgs)
  | assign => exact .raise _
  | access => exact .raise _
  | wrap wr inn m =>
    cases h : ctx.method with
    | comb => exact absurd h hm
    | cyc => exact .raise _
    | random =>
      exact (Agree.lift fun g hg => mkGen_NC hm hg).bind fun wg hwg =>
        (Agree.lift fun g hg => mkGen_NC hm hg).bind fun ig hig => .pure (.zipWrap hwg hig)

theorem stepG_NC {g : Gen} (hg : NC g) :
    Agree (After NC) (stepG E r g) (stepG E s g) := by
  cases hg with
  | done => exact .pure trivial
  | start hm =>
    rename_i ctx c
    have key : Agree (After NC) (do let g ← startG E r ctx c; r.G g)
        (do let g ← startG E s ctx c; s.G g) :=
      (startG_NC hr hm c).bind fun g hg => hr.G g hg
    cases c with
    | lit t m =>
      simp only [stepG]
      cases h : ctx.method with
      | comb => exact absurd h hm
      | random => exact .pure .rep
      | cyc => exact .pure .rep
    | _ => exact key
  | rep => exact .pure .rep
  | seqNF h => exact (rotate_NC hr h).bind fun x hx => .pure (.seqNF hx)
  | randVar hm =>
    refine (Agree.any _).bind fun k _ => (Agree.any _).bind fun sel _ =>
      (Agree.lift fun gs hgs => mkGens_NC hm hgs).bind fun gens hgens => ?_
    cases gens with
    | nil => exact .pure (.randVar hm)
    | cons g gs => exact (rotate_NC hr hgens).bind fun x _ => .pure (.randVar hm)
  | randWild hm =>
    refine (Agree.any _).bind fun k _ => (Agree.lift fun g hg => sampleGen_NC hm hg).bind
      fun g hg => (hr.G g hg).bind fun x _ => ?_
    cases x with
    | none => exact hr.G _ (.randWild hm)
    | some x => exact .pure (.randWild hm)
  | zipWrap h1 h2 =>
    refine (hr.G _ h1).bind fun x hx => ?_
    cases x with
    | none => exact .pure trivial
    | some x =>
      refine (hr.G _ h2).bind fun y hy => ?_
      cases y with
      | none => exact .pure trivial
      | some y => exact .pure (.zipWrap hx hy)
  | cycVar h =>
    cases h with
    | nil => exact .diverge
    | cons h h' =>
      refine (hr.A _ h).bind fun x hx => ?_
      cases x with
      | none => exact .raise _
      | some x => exact .pure (.cycVar (h'.append (.cons hx .nil)))
  | cycWild h =>
    cases h with
    | nil => exact .pure trivial
    | cons h h' => exact (next!_NC hr h).bind fun x hx => .pure (.cycWild (h'.append (.cons hx .nil)))
  | squash h =>
    refine (hr.G _ h).bind fun x hx => ?_
    cases x with
    | none => exact .pure trivial
    | some x => exact .pure (.squash hx)

theorem stepA_NC {a : Arr} (ha : NCA a) : Agree (After NCA) (stepA E r a) (stepA E s a) := by
  cases ha with
  | done => exact .pure trivial
  | nil => exact .pure .nil
  | start hm =>
    rename_i ctx combo
    cases combo with
    | nil => exact .pure .nil
    | cons c cs =>
      exact (Agree.lift fun g hg => mkGen_NC hm hg).bind fun g hg => hr.A _ (.node hg (.start hm))
  | node h1 h2 =>
    refine (hr.A _ h2).bind fun x hx => ?_
    cases x with
    | none => exact .pure trivial
    | some x =>
      refine (hr.G _ h1).bind fun y hy => ?_
      cases y with
      | none => exact .pure .done
      | some y => exact .pure (.node hy hx)

end
end Verif
