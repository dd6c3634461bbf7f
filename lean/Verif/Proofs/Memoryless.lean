import Verif.Proofs.Limit
import Verif.Proofs.WorldSim
import Verif.Proofs.VarChain
import Verif.Model.Generators
/-! Memoryless templates: every later state of the generator gives the same prompts. -/

namespace Verif
open Spec
variable {W : Type} {E : Env W} {reseed : Int → W → W} {values : Str → Except Err (List Item)}
  {R : W → W → Prop}

/-- The next prompt, without the state after it. -/
noncomputable def out (E : Env W) (g : Gen) : M W (Option Str) := do
  let x ← (lim E).G g
  return x.map (·.1)

section basic
variable (H : SeededWorld E reseed values R)
include H

theorem gv_sim (wc : Str) : SimW R (E.getValues wc) (E.getValues wc) := by
  intro w w' hw
  have hww := H.trans _ _ _ hw (H.symm _ _ hw)
  have hww' := H.trans _ _ _ (H.symm _ _ hw) hw
  cases hv : values wc with
  | ok items =>
    obtain ⟨w1, h1, h2⟩ := H.answers wc items w hv hww
    obtain ⟨w2, h3, h4⟩ := H.answers wc items w' hv hww'
    rw [h1, h3]
    exact ⟨rfl, H.trans _ _ _ (H.symm _ _ h2) (H.trans _ _ _ hw h4)⟩
  | error e =>
    obtain ⟨w1, h1, h2⟩ := H.fails wc e w hv hww
    obtain ⟨w2, h3, h4⟩ := H.fails wc e w' hv hww'
    rw [h1, h3]
    exact ⟨rfl, H.trans _ _ _ (H.symm _ _ h2) (H.trans _ _ _ hw h4)⟩

theorem recs_self (n : Nat) : SimRecs R (recs E n) (recs E n) :=
  recs_sim (E := E) (R := R) H.draws (gv_sim H) n

theorem lim_self : SimRecs R (lim E) (lim E) := by
  have key : ∀ {α : Type} {x : Nat → M W α} {y : M W α}, Conv x y → (∀ n, SimW R (x n) (x n)) →
      SimW R y y := by
    intro α x y hc hs w w' hw
    obtain ⟨N, hN⟩ := hc w
    obtain ⟨N', hN'⟩ := hc w'
    have := hs (max N N') w w' hw
    rwa [hN _ (by omega), hN' _ (by omega)] at this
  exact ⟨fun g => key ((lim_conv E).G g) fun n => (recs_self H n).G g,
    fun a => key ((lim_conv E).A a) fun n => (recs_self H n).A a,
    fun c f => key ((lim_conv E).S c f) fun n => (recs_self H n).S c f,
    fun f => key ((lim_conv E).P f) fun n => (recs_self H n).P f⟩

theorem out_self (g : Gen) : SimW R (out E g) (out E g) :=
  SimW.bind ((lim_self H).G g) fun _ => SimW.pure _

end basic

theorem SimW.trans' {α : Type} {x y z : M W α} (ht : ∀ w w' w'', R w w' → R w' w'' → R w w'')
    (hs : ∀ w w', R w w' → R w' w) (h1 : SimW R x y) (h2 : SimW R y z) : SimW R x z := by
  intro w w' hw
  have a := h1 w w (ht _ _ _ hw (hs _ _ hw))
  have b := h2 w w' hw
  revert a b
  cases x w <;> cases y w <;> cases z w' <;> simp only [SameOutcome, false_imp_iff, imp_false,
    imp_self, implies_true, not_false_eq_true]
  all_goals
    rintro ⟨rfl, h⟩ ⟨rfl, h'⟩
    exact ⟨rfl, ht _ _ _ h h'⟩

theorem SimW.symm' {α : Type} {x y : M W α} (hs : ∀ w w', R w w' → R w' w) (h1 : SimW R x y) :
    SimW R y x := by
  intro w w' hw
  have a := h1 w' w (hs _ _ hw)
  revert a
  cases x w' <;> cases y w <;> simp only [SameOutcome, imp_self]
  all_goals
    rintro ⟨rfl, h⟩
    exact ⟨rfl, hs _ _ h⟩

/-- State `h` gives the same prompts as state `g`, now and later. -/
def Like (E : Env W) (R : W → W → Prop) (g h : Gen) : Prop :=
  ∃ S : Gen → Prop, S h ∧ ∀ h, S h → SimW R (out E g) (out E h) ∧
    ∀ w v h' w', R w w → (lim E).G h w = .ok (some (v, h')) w' → S h'

theorem Like.sim {g h : Gen} (hl : Like E R g h) : SimW R (out E g) (out E h) := by
  obtain ⟨S, hS, hc⟩ := hl
  exact (hc h hS).1

theorem Like.next {g h h' : Gen} {w w' : W} {v : Str} (hl : Like E R g h) (hw : R w w)
    (hn : (lim E).G h w = .ok (some (v, h')) w') : Like E R g h' := by
  obtain ⟨S, hS, hc⟩ := hl
  exact ⟨S, (hc h hS).2 w v h' w' hw hn, hc⟩

/-- A generator that keeps nothing. -/
abbrev Steady (E : Env W) (R : W → W → Prop) (g : Gen) : Prop := Like E R g g

section
variable (H : SeededWorld E reseed values R)
include H

theorem Steady.loop {g : Gen} (h : ∀ w v h' w', R w w → (lim E).G g w = .ok (some (v, h')) w' → h' = g) :
    Steady E R g :=
  ⟨fun h => h = g, rfl, by rintro _ rfl; exact ⟨out_self H _, h⟩⟩

theorem Steady.fail {g : Gen} (h : ∀ w x w', R w w → (lim E).G g w ≠ .ok (some x) w') : Steady E R g :=
  Steady.loop H fun w v h' w' hw hn => absurd hn (h w _ w' hw)

theorem Steady.of_next {g g0 : Gen} (h0 : Steady E R g0)
    (h : ∀ w, R w w → ∃ w', R w w' ∧ (lim E).G g w = (lim E).G g0 w') : Steady E R g := by
  refine ⟨fun h => h = g ∨ Like E R g0 h, .inl rfl, ?_⟩
  rintro k (rfl | hk)
  · refine ⟨out_self H _, fun w v h' w' hw hn => .inr ?_⟩
    obtain ⟨w1, h1, h2⟩ := h w hw
    rw [h2] at hn
    exact h0.next (H.trans _ _ _ (H.symm _ _ h1) h1) hn
  · refine ⟨fun w w' hw => ?_, fun w v h' w' hw hn => .inr (hk.next hw hn)⟩
    obtain ⟨w1, h1, h2⟩ := h w (H.trans _ _ _ hw (H.symm _ _ hw))
    have : out E g w = out E g0 w1 := by
      show M.bind _ _ w = M.bind _ _ w1
      simp only [M.bind, h2]
    rw [this]
    exact hk.sim w1 w' (H.trans _ _ _ (H.symm _ _ h1) hw)

theorem steady_rep (s : Str) : Steady E R (.rep s) :=
  Steady.loop H fun w v h' w' _ hn => by rw [lim_G] at hn; cases hn; rfl

theorem steady_done : Steady E R .done :=
  Steady.fail H fun w x w' _ hn => by rw [lim_G] at hn; cases hn

omit H in
theorem steady_squash {g : Gen} (h : Steady E R g) : Steady E R (.squash g) := by
  refine ⟨fun k => ∃ h, k = .squash h ∧ Like E R g h, ⟨g, rfl, h⟩, ?_⟩
  rintro _ ⟨k, rfl, hk⟩
  have ho : ∀ g, out E (.squash g) = (do let x ← out E g; return x.map squashWhitespace) := by
    intro g
    funext w
    show M.bind _ _ w = M.bind (M.bind _ _) _ w
    rw [lim_G]
    show M.bind (M.bind _ _) _ w = _
    simp only [M.bind]
    cases (lim E).G g w with
    | ok a w1 => cases a <;> rfl
    | err => rfl
    | fuel => rfl
  constructor
  · rw [ho, ho]
    exact SimW.bind hk.sim fun _ => SimW.pure _
  · intro w v h' w' hw hn
    rw [lim_G] at hn
    simp only [stepG] at hn
    rw [M.bind_eq] at hn
    cases hx : (lim E).G k w with
    | ok a w1 =>
      rw [hx] at hn
      cases a with
      | none => cases hn
      | some p => cases hn; exact ⟨p.2, rfl, hk.next hw (v := p.1) hx⟩
    | err e w1 => rw [hx] at hn; cases hn
    | fuel => rw [hx] at hn; cases hn

/-- The texts of `rotate_all`. -/
noncomputable def rotOut (E : Env W) (gs : List Gen) : M W (List Str) := do
  let x ← (lim E).rotate gs
  return x.1

omit H in
theorem rotOut_cons (g : Gen) (gs : List Gen) : rotOut E (g :: gs) = (do
    let v ← out E g
    match v with
    | none => M.raise .runtime
    | some v => do
      let vs ← rotOut E gs
      return v :: vs) := by
  funext w
  show M.bind (M.bind (M.bind _ _) _) _ w = M.bind (M.bind _ _) _ w
  simp only [M.bind]
  cases (lim E).G g w with
  | ok a w1 =>
    cases a with
    | none => rfl
    | some p =>
      show M.bind (M.bind _ _) _ w1 = M.bind (M.bind _ _) _ w1
      simp only [M.bind]
      cases (lim E).rotate gs w1 <;> rfl
  | err => rfl
  | fuel => rfl

omit H in
theorem rotOut_sim {gs hs : List Gen} (h : List.Forall₂ (Like E R) gs hs) :
    SimW R (rotOut E gs) (rotOut E hs) := by
  induction h with
  | nil => exact SimW.bind (SimW.pure _) fun _ => SimW.pure _
  | cons h _ ih =>
    rw [rotOut_cons, rotOut_cons]
    refine SimW.bind h.sim fun v => ?_
    cases v with
    | none => exact SimW.raise _
    | some v => exact SimW.bind ih fun _ => SimW.pure _

theorem rotate_like {gs hs hs' : List Gen} {vs : List Str} {w w' : W}
    (h : List.Forall₂ (Like E R) gs hs) (hw : R w w) (hr : (lim E).rotate hs w = .ok (vs, hs') w') :
    List.Forall₂ (Like E R) gs hs' := by
  induction h generalizing vs hs' w w' with
  | nil => cases hr; exact .nil
  | @cons g k gs ks h _ ih =>
    unfold Recs.rotate at hr
    obtain ⟨⟨v, k'⟩, w1, h1, h2⟩ := M.bind_ok.1 hr
    obtain ⟨⟨vs1, ks'⟩, w2, h3, h4⟩ := M.bind_ok.1 h2
    cases h4
    unfold Recs.next! at h1
    obtain ⟨o, w3, h5, h6⟩ := M.bind_ok.1 h1
    cases o with
    | none => cases h6
    | some p =>
      cases h6
      have hww : R w1 w1 := by
        have := (lim_self H).G k w w hw
        rw [h5] at this
        exact this.2
      exact .cons (h.next hw h5) (ih hww h3)

theorem steady_seqNF {sep : Str} {gs : List Gen} (h : ∀ g ∈ gs, Steady E R g) :
    Steady E R (.seqNF sep gs) := by
  have h0 : List.Forall₂ (Like E R) gs gs := List.forall₂_same.2 h
  refine ⟨fun k => ∃ hs, k = .seqNF sep hs ∧ List.Forall₂ (Like E R) gs hs, ⟨gs, rfl, h0⟩, ?_⟩
  rintro _ ⟨hs, rfl, hk⟩
  have ho : ∀ gs, out E (.seqNF sep gs) = (do let x ← rotOut E gs; return some (joined sep x)) := by
    intro g
    funext w
    show M.bind _ _ w = M.bind (M.bind _ _) _ w
    rw [lim_G]
    show M.bind (M.bind _ _) _ w = _
    simp only [M.bind]
    cases (lim E).rotate g w <;> rfl
  constructor
  · rw [ho, ho]
    exact SimW.bind (rotOut_sim hk) fun _ => SimW.pure _
  · intro w v h' w' hw hn
    rw [lim_G] at hn
    obtain ⟨⟨vs, hs'⟩, w1, h1, h2⟩ := M.bind_ok.1 hn
    cases h2
    exact ⟨hs', rfl, rotate_like H hk hw h1⟩

theorem steady_zipWrap {a b : Gen} (ha : Steady E R a) (hb : Steady E R b) :
    Steady E R (.zipWrap a b) := by
  refine ⟨fun k => ∃ x y, k = .zipWrap x y ∧ Like E R a x ∧ Like E R b y, ⟨a, b, rfl, ha, hb⟩, ?_⟩
  rintro _ ⟨x, y, rfl, hx, hy⟩
  have ho : ∀ a b, out E (.zipWrap a b) = (do
      let x ← out E a
      match x with
      | none => return none
      | some x => do
        let y ← out E b
        return y.map (wrapWith x)) := by
    intro a b
    funext w
    show M.bind _ _ w = M.bind (M.bind _ _) _ w
    rw [lim_G]
    show M.bind (M.bind _ _) _ w = _
    simp only [M.bind]
    cases (lim E).G a w with
    | ok p w1 =>
      cases p with
      | none => rfl
      | some p =>
        show M.bind (M.bind _ _) _ w1 = M.bind (M.bind _ _) _ w1
        simp only [M.bind]
        cases (lim E).G b w1 with
        | ok q w2 => cases q <;> rfl
        | err => rfl
        | fuel => rfl
    | err => rfl
    | fuel => rfl
  constructor
  · rw [ho, ho]
    refine SimW.bind hx.sim fun v => ?_
    cases v with
    | none => exact SimW.pure _
    | some v => exact SimW.bind hy.sim fun _ => SimW.pure _
  · intro w v h' w' hw hn
    rw [lim_G] at hn
    obtain ⟨o, w1, h1, h2⟩ := M.bind_ok.1 hn
    cases o with
    | none => cases h2
    | some p =>
      obtain ⟨o, w2, h3, h4⟩ := M.bind_ok.1 h2
      cases o with
      | none => cases h4
      | some q =>
        cases h4
        have hww : R w1 w1 := by
          have := (lim_self H).G x w w hw
          rw [h1] at this
          exact this.2
        exact ⟨_, _, rfl, hx.next hw (v := p.1) h1, hy.next hww (v := q.1) h3⟩

theorem steady_randWild {ctx : Ctx} {items : List Item} (hi : hasVariedWeights items = false) :
    Steady E R (.randWild ctx items []) := by
  refine Steady.loop H ?_
  intro w v h' w' hw hn
  rw [nextG_iff.symm] at hn
  obtain ⟨N, hN'⟩ := hn
  have hN : nextG E N _ _ = _ := hN' N le_rfl
  clear hw hN'
  induction N generalizing w with
  | zero => cases hN
  | succ N ih =>
    have hN : stepG E (recs E N) (.randWild ctx items []) w = _ := hN
    simp only [stepG] at hN
    obtain ⟨⟨value, buf⟩, w1, h1, h2⟩ := M.bind_ok.1 hN
    have hb : buf = [] := by
      unfold weightedNext at h1
      rw [hi] at h1
      obtain ⟨x, w2, _, h4⟩ := M.bind_ok.1 h1
      cases h4; rfl
    subst hb
    obtain ⟨g, w2, h3, h4⟩ := M.bind_ok.1 h2
    obtain ⟨o, w3, h5, h6⟩ := M.bind_ok.1 h4
    cases o with
    | some p => cases h6; rfl
    | none => exact ih _ h6

omit H in
theorem adjustBounds_idem {n : Nat} {lo hi : Int}
    (h : (adjustBounds n lo hi).1 ≤ (adjustBounds n lo hi).2) :
    adjustBounds n (adjustBounds n lo hi).1 (adjustBounds n lo hi).2 = adjustBounds n lo hi := by
  simp only [adjustBounds, normBounds] at *
  refine Prod.ext ?_ ?_ <;> dsimp only <;> omega

theorem steady_randVar {ctx : Ctx} {opts : List (Cmd × Rat)} {lo hi : Int} {sep : Str} :
    Steady E R (.randVar ctx opts lo hi sep) := by
  by_cases hb : (adjustBounds opts.length lo hi).1 ≤ (adjustBounds opts.length lo hi).2
  · have key : ∀ lo hi w v h' w', (lim E).G (.randVar ctx opts lo hi sep) w = .ok (some (v, h')) w' →
        h' = .randVar ctx opts (adjustBounds opts.length lo hi).1 (adjustBounds opts.length lo hi).2 sep := by
      intro lo hi w v h' w' hn
      rw [lim_G] at hn
      simp only [stepG] at hn
      obtain ⟨k, w1, -, h2⟩ := M.bind_ok.1 hn
      obtain ⟨sel, w2, -, h3⟩ := M.bind_ok.1 h2
      obtain ⟨gens, w3, -, h4⟩ := M.bind_ok.1 h3
      cases gens with
      | nil => cases h4; rfl
      | cons g gs =>
        obtain ⟨x, w4, -, h5⟩ := M.bind_ok.1 h4
        cases h5; rfl
    refine Steady.of_next H (g0 := .randVar ctx opts (adjustBounds opts.length lo hi).1
      (adjustBounds opts.length lo hi).2 sep) ?_ ?_
    · refine Steady.loop H fun w v h' w' _ hn => ?_
      have := key _ _ w v h' w' hn
      rwa [adjustBounds_idem hb] at this
    · intro w hw
      refine ⟨w, hw, ?_⟩
      rw [lim_G, lim_G]
      simp only [stepG, adjustBounds_idem hb]
  · refine Steady.fail H fun w x w' _ hn => ?_
    rw [lim_G] at hn
    simp only [stepG] at hn
    obtain ⟨k, w1, h1, -⟩ := M.bind_ok.1 hn
    simp only [Rng.randint, if_neg hb] at h1
    cases h1

omit H in
theorem lim_start {ctx : Ctx} {c : Cmd} (hc : ∀ s m, c ≠ .lit s m) :
    (lim E).G (.start ctx c) = (do let g ← startG E (lim E) ctx c; (lim E).G g) := by
  rw [lim_G]
  cases c with
  | lit s m => exact absurd rfl (hc s m)
  | _ => rfl

/-- A generator whose preparation always ends in the same steady state. -/
theorem Steady.of_start {ctx : Ctx} {c : Cmd} {g0 : Gen} (hc : ∀ s m, c ≠ .lit s m)
    (h0 : Steady E R g0)
    (h : ∀ w, R w w → ∃ w', R w w' ∧ startG E (lim E) ctx c w = .ok g0 w') :
    Steady E R (.start ctx c) := by
  refine Steady.of_next H h0 fun w hw => ?_
  obtain ⟨w', h1, h2⟩ := h w hw
  exact ⟨w', h1, by rw [lim_start hc, M.bind_of_ok h2]⟩

/-- A generator whose preparation always fails. -/
theorem Steady.of_start_fail {ctx : Ctx} {c : Cmd} (hc : ∀ s m, c ≠ .lit s m)
    (h : ∀ w, R w w → ∀ g w', startG E (lim E) ctx c w ≠ .ok g w') :
    Steady E R (.start ctx c) := by
  refine Steady.fail H fun w x w' hw hn => ?_
  rw [lim_start hc] at hn
  obtain ⟨g, w1, h1, -⟩ := M.bind_ok.1 hn
  exact h w hw g w1 h1

theorem steady_lit {ctx : Ctx} {s : Str} {m : Option Method} (hm : ctx.method ≠ .comb) :
    Steady E R (.start ctx (.lit s m)) := by
  refine Steady.of_next H (steady_rep H s) fun w hw => ⟨w, hw, ?_⟩
  rw [lim_G, lim_G]
  simp only [stepG]

omit H in
theorem mkGen_lit (u : Option Cmd) (ctx : Ctx) (s : Str) (m : Option Method) :
    mkGen u ctx (.lit s m) = .ok (.start ⟨effMethod ctx.method m, ctx.vars, ctx.being⟩ (.lit s m)) :=
  mkGen_outcome (Chain.target (by simp))

omit H in
theorem effMethod_random_ne_comb (m : Option Method) : effMethod .random m ≠ .comb := by
  rcases m with _ | m
  · decide
  · cases m <;> decide

omit H in
theorem effMethod_random_of {m : Option Method} (h : m ≠ some .cyc) : effMethod .random m = .random := by
  rcases m with _ | m
  · rfl
  · cases m <;> first | rfl | exact absurd rfl h

omit H in
theorem sampleFirst_plain {ctx : Ctx} {path : Prompt} {wc : Str} (hm : ctx.method = .random)
    (h : PlainPath E path wc) (w : W) : (lim E).sampleFirst E ctx path w = .ok wc w := by
  have key : ∀ t m, (lim E).G (.start ⟨effMethod ctx.method m, ctx.vars, ctx.being⟩ (.lit t m)) w =
      .ok (some (t, .rep t)) w := by
    intro t m
    rw [lim_G, hm]
    have := effMethod_random_ne_comb m
    simp only [stepG]
    rfl
  have key2 : ∀ t m, (lim E).next! (if E.ignoreWs then
      .squash (.start ⟨effMethod ctx.method m, ctx.vars, ctx.being⟩ (.lit t m)) else
      .start ⟨effMethod ctx.method m, ctx.vars, ctx.being⟩ (.lit t m)) w =
      .ok (if E.ignoreWs then squashWhitespace t else t,
        if E.ignoreWs then .squash (.rep t) else .rep t) w := by
    intro t m
    unfold Recs.next!
    cases E.ignoreWs with
    | false => rw [if_neg (by simp), M.bind_of_ok (key t m)]; rfl
    | true =>
      have : (lim E).G (.squash (.start ⟨effMethod ctx.method m, ctx.vars, ctx.being⟩ (.lit t m))) w =
          .ok (some (squashWhitespace t, .squash (.rep t))) w := by
        rw [lim_G]
        show M.bind _ _ w = _
        simp only [M.bind, key t m]
        rfl
      rw [if_pos rfl, M.bind_of_ok this]; rfl
  cases h with
  | @text s t m hs hp =>
    unfold Recs.sampleFirst
    have : sampleGen E ctx (.inl s) = .ok (if E.ignoreWs then
      .squash (.start ⟨effMethod ctx.method m, ctx.vars, ctx.being⟩ (.lit t m)) else
      .start ⟨effMethod ctx.method m, ctx.vars, ctx.being⟩ (.lit t m)) := by
      have hs' : s.isEmpty = false := by cases s <;> simp at hs ⊢
      simp only [sampleGen, hs', hp, mkGen_lit]
      rfl
    rw [this]
    exact (M.bind_of_ok (rfl : M.lift (.ok _) w = .ok _ w)).trans (M.bind_of_ok (key2 t m))
  | @lit t m =>
    unfold Recs.sampleFirst
    have : sampleGen E ctx (.inr (.lit t m)) = .ok (if E.ignoreWs then
      .squash (.start ⟨effMethod ctx.method m, ctx.vars, ctx.being⟩ (.lit t m)) else
      .start ⟨effMethod ctx.method m, ctx.vars, ctx.being⟩ (.lit t m)) := by
      simp only [sampleGen, mkGen_lit, Cmd.truthy]
      rfl
    rw [this]
    exact (M.bind_of_ok (rfl : M.lift (.ok _) w = .ok _ w)).trans (M.bind_of_ok (key2 t m))

omit H in
theorem assigns_lazy {r : Recs W} {ctx : Ctx} {toks : List Cmd} (h : ∀ c ∈ toks, Lazy c) :
    ∃ toks', (∀ c ∈ toks', c ∈ toks ∧ NotAssign c) ∧
      ∀ w, r.assigns E ctx toks w = .ok (toks', defined ctx.vars toks) w := by
  induction toks with
  | nil => exact ⟨[], by simp, fun _ => rfl⟩
  | cons c toks ih =>
    obtain ⟨toks', h1, h2⟩ := ih fun c hc => h c (by simp [hc])
    have hc := h c (by simp)
    cases c with
    | assign n v i o =>
      refine ⟨toks', fun c hc => ⟨by simp [h1 c hc], (h1 c hc).2⟩, fun w => ?_⟩
      have ha : r.assign E ctx n v i o w =
          .ok (if o then v else (ctx.vars.lookup n).getD v) w := by
        unfold Recs.assign
        cases o with
        | true =>
          simp only [if_true]
          cases i with
          | false => rfl
          | true => cases v <;> simp [Lazy] at hc <;> rfl
        | false =>
          simp only [Bool.false_eq_true, if_false]
          cases ctx.vars.lookup n with
          | some x => rfl
          | none =>
            cases i with
            | false => rfl
            | true => cases v <;> simp [Lazy] at hc <;> rfl
      show M.bind _ _ w = _
      simp only [M.bind, ha]
      show M.bind _ _ w = _
      simp only [M.bind, h2]
      rfl
    | lit | seq | variant | wild | access | wrap =>
      refine ⟨_, ?_, fun w => ((M.bind_of_ok (h2 w)).trans rfl : M.bind _ _ w = _)⟩
      intro c hc
      rcases List.mem_cons.1 hc with rfl | hc
      · exact ⟨by simp, trivial⟩
      · exact ⟨by simp [h1 c hc], (h1 c hc).2⟩

omit H in
theorem mkGens_mem {u : Option Cmd} {ctx : Ctx} {cs : List Cmd} {gs : List Gen}
    (h : mkGens u ctx cs = .ok gs) : ∀ g ∈ gs, ∃ c ∈ cs, mkGen u ctx c = .ok g := by
  induction cs generalizing gs with
  | nil => cases h; simp
  | cons c cs ih =>
    simp only [mkGens] at h
    cases h1 : mkGen u ctx c with
    | error e => rw [h1] at h; cases h
    | ok g =>
      rw [h1] at h
      cases h2 : mkGens u ctx cs with
      | error e => rw [h2] at h; cases h
      | ok gs' =>
        rw [h2] at h
        cases h
        intro g' hg
        rcases List.mem_cons.1 hg with rfl | hg
        · exact ⟨c, by simp, h1⟩
        · obtain ⟨c', hc, h3⟩ := ih h2 g' hg
          exact ⟨c', by simp [hc], h3⟩

omit H in
theorem mkGen_access {u : Option Cmd} {ctx : Ctx} {name : Str} {d : Option Cmd} {g : Gen}
    (h : mkGen u ctx (.access name d) = .ok g) :
    ∃ c, Resolves u ctx.vars name d c ∧
      mkGen u { ctx with being := name :: ctx.being } c = .ok g := by
  obtain ⟨o, ho⟩ := chain_total u ctx.vars ctx.being (.access name d)
  rw [mkGen_outcome ho] at h
  cases ho with
  | target hn => exact absurd rfl (hn _ _)
  | undefined => cases h
  | loop => cases h
  | @step _ _ _ c o hr hb ho =>
    refine ⟨c, hr, ?_⟩
    rw [mkGen_outcome (ctx := { ctx with being := name :: ctx.being }) ho]
    rw [← h]
    cases o <;> rfl

theorem getValues_const (wc : Str) : (∃ items, values wc = .ok items ∧
      ∀ w, R w w → ∃ w', R w w' ∧ E.getValues wc w = .ok items w') ∨
    ∀ w, R w w → ∀ a w', E.getValues wc w ≠ .ok a w' := by
  cases hv : values wc with
  | ok items =>
    refine .inl ⟨items, rfl, fun w hw => ?_⟩
    obtain ⟨w', h1, h2⟩ := H.answers wc items w hv hw
    exact ⟨w', h2, h1⟩
  | error e =>
    refine .inr fun w hw a w' => ?_
    obtain ⟨w', h1, h2⟩ := H.fails wc e w hv hw
    rw [h1]; simp

/-- Memoryless templates have steady generators. -/
theorem memoryless_steady {vars : List (Str × Cmd)} {c : Cmd} (hc : Memoryless E values vars c) :
    ∀ ctx : Ctx, ctx.method = .random → ctx.vars = vars → ∀ g, mkGen E.unknown ctx c = .ok g →
      Steady E R g := by
  induction hc with
  | @lit vars s m =>
    intro ctx hm hv g hg
    rw [mkGen_lit] at hg
    cases hg
    exact steady_lit H (by rw [hm]; exact effMethod_random_ne_comb m)
  | @seq vars toks sep m hmc hl _ ih =>
    intro ctx hm hv g hg
    rw [mkGen_outcome (Chain.target (by simp))] at hg
    cases hg
    simp only [Cmd.method, hm, effMethod_random_of hmc]
    generalize hctx : (⟨.random, ctx.vars, ctx.being⟩ : Ctx) = ctx'
    have hm' : ctx'.method = .random := by subst hctx; rfl
    have hv' : ctx'.vars = vars := by subst hctx; exact hv
    obtain ⟨toks', h1, h2⟩ := assigns_lazy (E := E) (r := lim E) (ctx := ctx') hl
    cases hg : mkGens E.unknown (ctx'.withVars (defined ctx'.vars toks)) toks' with
    | error e =>
      refine Steady.of_start_fail H (by simp) fun w hw g w' hn => ?_
      simp only [startG] at hn
      rw [M.bind_of_ok (h2 w)] at hn
      simp only [hm'] at hn
      rw [hg] at hn
      cases hn
    | ok gs =>
      refine Steady.of_start H (g0 := .seqNF sep gs) (by simp) ?_ fun w hw => ⟨w, hw, ?_⟩
      · refine steady_seqNF H fun g hgm => ?_
        obtain ⟨c, hc, hg'⟩ := mkGens_mem hg g hgm
        exact ih c (h1 c hc).1 (h1 c hc).2 (ctx'.withVars (defined ctx'.vars toks)) hm'
          (by simp [Ctx.withVars, hv']) g hg'
      · simp only [startG]
        rw [M.bind_of_ok (h2 w)]
        simp only [hm']
        rw [hg]
        rfl
  | @choice vars opts lo hi sep m hmc hl =>
    intro ctx hm hv g hg
    rw [mkGen_outcome (Chain.target (by simp))] at hg
    cases hg
    simp only [Cmd.method, hm, effMethod_random_of hmc]
    refine Steady.of_start H (by simp) (steady_randVar H (ctx := ⟨.random, ctx.vars, ctx.being⟩)
      (opts := opts) (lo := lo) (hi := hi) (sep := sep)) fun w hw => ⟨w, hw, ?_⟩
    match opts, hl with
    | a :: b :: opts, _ => simp only [startG]; rfl
  | @none vars lo hi sep m =>
    intro ctx hm hv g hg
    rw [mkGen_outcome (Chain.target (by simp))] at hg
    cases hg
    exact Steady.of_start H (by simp) (steady_done H) fun w hw => ⟨w, hw, rfl⟩
  | @single vars c q lo hi sep m hmc hnw _ ih =>
    intro ctx hm hv g hg
    rw [mkGen_outcome (Chain.target (by simp))] at hg
    cases hg
    simp only [Cmd.method, hm, effMethod_random_of hmc]
    have hs : startG E (lim E) ⟨.random, ctx.vars, ctx.being⟩ (.variant [(c, q)] lo hi sep m) =
        M.lift (mkGen E.unknown ⟨.random, ctx.vars, ctx.being⟩ c) := by
      cases c <;> first | rfl | exact hnw.elim
    cases hg : mkGen E.unknown ⟨.random, ctx.vars, ctx.being⟩ c with
    | error e =>
      refine Steady.of_start_fail H (by simp) fun w hw g w' hn => ?_
      rw [hs, hg] at hn
      cases hn
    | ok g =>
      refine Steady.of_start H (g0 := g) (by simp) (ih ⟨.random, ctx.vars, ctx.being⟩ rfl hv g hg) fun w hw => ⟨w, hw, ?_⟩
      rw [hs, hg]; rfl
  | @choiceOfValues vars path mw pvars q lo hi sep m wc hmc hp hn =>
    intro ctx hm hv g hg
    rw [mkGen_outcome (Chain.target (by simp))] at hg
    cases hg
    simp only [Cmd.method, hm, effMethod_random_of hmc]
    generalize hctx : (⟨.random, ctx.vars, ctx.being⟩ : Ctx) = ctx'
    have hm' : ctx'.method = .random := by subst hctx; rfl
    have hs : ∀ w, startG E (lim E) ctx' (.variant [(.wild path mw pvars, q)] lo hi sep m) w =
        (do
          let values ← E.getValues wc
          let opts ← M.lift ((iterateWeighted values).mapM
            (fun v => (E.parse v).map (fun c => (c, (1 : Rat)))))
          return Gen.start ctx' (Cmd.mkVariant opts (min lo values.length) (min hi values.length) sep mw)) w := by
      intro w
      simp only [startG, Recs.wildcardToVariant]
      rw [M.bind_eq, M.bind_of_ok (sampleFirst_plain hm' hp w), M.bind_eq (E.getValues wc),
        M.bind_eq (E.getValues wc)]
      cases E.getValues wc w with
      | ok items w1 =>
        dsimp only
        rw [M.bind_eq, M.bind_eq]
        cases (M.lift ((iterateWeighted items).mapM
            (fun v => (E.parse v).map (fun c => (c, (1 : Rat))))) : M W _) w1 <;> rfl
      | err => rfl
      | fuel => rfl
    rcases getValues_const H wc with ⟨items, hvi, hgv⟩ | hgv
    · have hni := hn items hvi
      cases ho : (iterateWeighted items).mapM (fun v => (E.parse v).map (fun c => (c, (1 : Rat)))) with
      | error e =>
        refine Steady.of_start_fail H (by simp) fun w hw g w' hn => ?_
        obtain ⟨w1, -, h2⟩ := hgv w hw
        rw [hs, M.bind_of_ok h2, ho] at hn
        cases hn
      | ok opts =>
        have hlen : opts.length ≠ 1 := by
          obtain ⟨cs, h1, rfl⟩ := mapM_parses ho
          have : (iterateWeighted items).length = cs.length := by
            clear ho hni
            generalize iterateWeighted items = vs at h1
            induction h1 with
            | nil => rfl
            | cons _ _ ih => simp [ih]
          rw [List.length_map, ← this]
          exact hni
        refine Steady.of_start H (g0 := .start ctx' (Cmd.mkVariant opts (min lo items.length)
          (min hi items.length) sep mw)) (by simp) ?_ fun w hw => ?_
        · unfold Cmd.mkVariant
          match opts, hlen with
          | [], _ => exact Steady.of_start H (by simp) (steady_done H) fun w hw => ⟨w, hw, rfl⟩
          | a :: b :: opts, _ =>
            refine Steady.of_start H (by simp) (steady_randVar H (ctx := ctx') (opts := a :: b :: opts)
              (lo := (normBounds (min lo items.length) (min hi items.length)).1)
              (hi := (normBounds (min lo items.length) (min hi items.length)).2) (sep := sep))
              fun w hw => ⟨w, hw, ?_⟩
            simp only [startG, hm']
            rfl
        · obtain ⟨w1, h1, h2⟩ := hgv w hw
          refine ⟨w1, h1, ?_⟩
          rw [hs, M.bind_of_ok h2, ho]
          rfl
    · refine Steady.of_start_fail H (by simp) fun w hw g w' hn => ?_
      rw [hs] at hn
      obtain ⟨items, w1, h1, -⟩ := M.bind_ok.1 hn
      exact hgv w hw _ _ h1
  | @wild vars path m pvars wc hmc hp hn =>
    intro ctx hm hv g hg
    rw [mkGen_outcome (Chain.target (by simp))] at hg
    cases hg
    simp only [Cmd.method, hm, effMethod_random_of hmc]
    generalize hctx : (⟨.random, ctx.vars, ctx.being⟩ : Ctx) = ctx'
    have hm' : ctx'.method = .random := by subst hctx; rfl
    rcases getValues_const H wc with ⟨items, hvi, hgv⟩ | hgv
    · have hni := hn items hvi
      cases hi : items with
      | nil =>
        subst hi
        have hf : ∃ s, ∀ w, (lim E).fallback E (ctx'.withVars pvars) path w = .ok (.rep s) w := by
          cases path with
          | inl s => exact ⟨_, fun w => rfl⟩
          | inr c =>
            refine ⟨E.toWildcard wc, fun w => ?_⟩
            show M.bind _ _ w = _
            simp only [M.bind, sampleFirst_plain (ctx := ctx'.withVars pvars) hm' hp w]
            rfl
        obtain ⟨s, hf⟩ := hf
        refine Steady.of_start H (by simp) (steady_rep H s) fun w hw => ?_
        obtain ⟨w1, h1, h2⟩ := hgv w hw
        refine ⟨w1, h1, ?_⟩
        simp only [startG]
        rw [M.bind_of_ok (sampleFirst_plain hm' hp w), M.bind_of_ok h2]
        exact hf w1
      | cons i is =>
        refine Steady.of_start H (by simp)
          (steady_randWild H (ctx := ctx'.withVars pvars) (items := items) hni) fun w hw => ?_
        obtain ⟨w1, h1, h2⟩ := hgv w hw
        refine ⟨w1, h1, ?_⟩
        simp only [startG]
        rw [M.bind_of_ok (sampleFirst_plain hm' hp w), M.bind_of_ok h2]
        simp only [hi, List.isEmpty_cons, Bool.false_eq_true, if_false, hm']
        rfl
    · refine Steady.of_start_fail H (by simp) fun w hw g w' hn => ?_
      simp only [startG] at hn
      rw [M.bind_of_ok (sampleFirst_plain hm' hp w)] at hn
      obtain ⟨items, w1, h1, -⟩ := M.bind_ok.1 hn
      exact hgv w hw _ _ h1
  | @wrap vars wr i m hmc _ _ ih1 ih2 =>
    intro ctx hm hv g hg
    rw [mkGen_outcome (Chain.target (by simp))] at hg
    simp only [outcomeGen, Cmd.method, hm, effMethod_random_of hmc] at hg
    rw [if_neg (by simp)] at hg
    cases hg
    cases h1 : mkGen E.unknown ⟨.random, ctx.vars, ctx.being⟩ wr with
    | error e =>
      refine Steady.of_start_fail H (by simp) fun w hw g w' hn => ?_
      simp only [startG] at hn
      rw [h1] at hn
      cases hn
    | ok g1 =>
      cases h2 : mkGen E.unknown ⟨.random, ctx.vars, ctx.being⟩ i with
      | error e =>
        refine Steady.of_start_fail H (by simp) fun w hw g w' hn => ?_
        simp only [startG] at hn
        rw [h1, h2] at hn
        cases hn
      | ok g2 =>
        refine Steady.of_start H (by simp)
          (steady_zipWrap H (ih1 ⟨.random, ctx.vars, ctx.being⟩ rfl hv g1 h1)
            (ih2 ⟨.random, ctx.vars, ctx.being⟩ rfl hv g2 h2)) fun w hw => ⟨w, hw, ?_⟩
        simp only [startG]
        rw [h1, h2]
        rfl
  | @access vars name d _ ih =>
    intro ctx hm hv g hg
    obtain ⟨c, hr, hg⟩ := mkGen_access hg
    rw [hv] at hr
    exact ih c hr { ctx with being := name :: ctx.being } hm hv g hg

end

end Verif
