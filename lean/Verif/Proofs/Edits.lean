import Verif.Spec.Edits
import Verif.Proofs.WorldSim
/-! Two sequences that differ in the texts of literals run in lockstep. -/

namespace Verif
open Spec
variable {W : Type} {α β γ δ : Type}

/-- From every world both do the same, with related results. -/
def Twin (P : α → β → Prop) (x : M W α) (y : M W β) : Prop :=
  ∀ w, match x w, y w with
    | .ok a w1, .ok b w2 => P a b ∧ w1 = w2
    | .err e w1, .err e' w2 => e = e' ∧ w1 = w2
    | .fuel, .fuel => True
    | _, _ => False

theorem Twin.pure {P : α → β → Prop} {a : α} {b : β} (h : P a b) :
    Twin P (Pure.pure a : M W α) (Pure.pure b : M W β) := fun _ => ⟨h, rfl⟩

theorem Twin.raise {P : α → β → Prop} (e : Err) : Twin P (M.raise e : M W α) (M.raise e : M W β) := fun _ => ⟨rfl, rfl⟩

theorem Twin.diverge {P : α → β → Prop} : Twin P (M.diverge : M W α) (M.diverge : M W β) := fun _ => trivial

theorem Twin.refl {P : α → α → Prop} (h : ∀ a, P a a) (x : M W α) : Twin P x x := by
  intro w
  cases x w with
  | ok a w => exact ⟨h a, rfl⟩
  | err e w => exact ⟨rfl, rfl⟩
  | fuel => trivial

theorem Twin.bind {P : α → β → Prop} {Q : γ → δ → Prop} {x : M W α} {y : M W β} {f : α → M W γ} {g : β → M W δ}
    (hx : Twin P x y) (hf : ∀ a b, P a b → Twin Q (f a) (g b)) : Twin Q (x >>= f) (y >>= g) := by
  intro w
  have h := hx w
  rw [M.bind_eq, M.bind_eq]
  cases hxw : x w with
  | ok a w1 =>
    cases hyw : y w with
    | ok b w2 => rw [hxw, hyw] at h; obtain ⟨h1, rfl⟩ := h; exact hf a b h1 w1
    | err e w2 => rw [hxw, hyw] at h; exact h.elim
    | fuel => rw [hxw, hyw] at h; exact h.elim
  | err e w1 =>
    cases hyw : y w with
    | ok b w2 => rw [hxw, hyw] at h; exact h.elim
    | err e' w2 => rw [hxw, hyw] at h; exact h
    | fuel => rw [hxw, hyw] at h; exact h.elim
  | fuel =>
    cases hyw : y w with
    | ok b w2 => rw [hxw, hyw] at h; exact h.elim
    | err e' w2 => rw [hxw, hyw] at h; exact h.elim
    | fuel => trivial

theorem Twin.weaken {P Q : α → β → Prop} {x : M W α} {y : M W β} (h : Twin P x y) (hpq : ∀ a b, P a b → Q a b) :
    Twin Q x y := by
  intro w
  have := h w
  cases hx : x w <;> cases hy : y w <;> rw [hx, hy] at this <;> first | exact this | exact ⟨hpq _ _ this.1, this.2⟩

/-- Related answers of generators. -/
def TwinOpt (P : α → β → Prop) : Option α → Option β → Prop
  | none, none => True
  | some a, some b => P a b
  | _, _ => False

/-- The generators of corresponding tokens. -/
inductive TokGen : Cmd → Cmd → Gen → Gen → Prop
  | same {c g} : Solid c → TokGen c c g g
  | lit {ctx a b m} : OwnText m a b → TokGen (.lit a m) (.lit b m) (.start ctx (.lit a m)) (.start ctx (.lit b m))
  | rep {a b m} : OwnText m a b → TokGen (.lit a m) (.lit b m) (.rep a) (.rep b)
  | done {a b m} : OwnText m a b → TokGen (.lit a m) (.lit b m) .done .done

/-- The texts of corresponding tokens. -/
inductive TokText : Cmd → Cmd → Str → Str → Prop
  | same {c x} : Solid c → TokText c c x x
  | text {a b m} : OwnText m a b → TokText (.lit a m) (.lit b m) a b

/-- The tokens left when the assignments are gone. -/
inductive KeptToks : List Cmd → List Cmd → List Cmd → List Cmd → Prop
  | nil : KeptToks [] [] [] []
  | same {c ts ts' us us'} : Solid c → KeptToks ts ts' us us' → KeptToks (c :: ts) (c :: ts') (c :: us) (c :: us')
  | text {a b m ts ts' us us'} : OwnText m a b → KeptToks ts ts' us us' →
      KeptToks (.lit a m :: ts) (.lit b m :: ts') (.lit a m :: us) (.lit b m :: us')
  | assign {n v i o ts ts' us us'} : KeptToks ts ts' us us' →
      KeptToks (.assign n v i o :: ts) (.assign n v i o :: ts') us us'

/-- Like `Edited`, without assignments. -/
inductive Plainly : List Cmd → List Cmd → Prop
  | nil : Plainly [] []
  | same {c ts ts'} : Solid c → Plainly ts ts' → Plainly (c :: ts) (c :: ts')
  | text {a b m ts ts'} : OwnText m a b → Plainly ts ts' → Plainly (.lit a m :: ts) (.lit b m :: ts')

theorem Plainly.append {ts ts' us us' : List Cmd} (h : Plainly ts ts') (h' : Plainly us us') :
    Plainly (ts ++ us) (ts' ++ us') := by
  induction h with
  | nil => exact h'
  | same hc _ ih => exact .same hc ih
  | text ho _ ih => exact .text ho ih

theorem KeptToks.edited {ts ts' us us' : List Cmd} (h : KeptToks ts ts' us us') : Plainly us us' := by
  induction h with
  | nil => exact .nil
  | same hc _ ih => exact .same hc ih
  | text ho _ ih => exact .text ho ih
  | assign _ ih => exact ih

theorem KeptToks.filled {ts ts' us us' : List Cmd} (h : KeptToks ts ts' us us') {row row' : List Str}
    (hf : Filled us us' row row') : Filled ts ts' row row' := by
  induction h generalizing row row' with
  | nil => exact hf
  | assign _ ih => exact .assign (ih hf)
  | same _ h ih =>
    cases hf with
    | same hc hf => exact .same hc (ih hf)
    | text ho hf => exact .text ho (ih hf)
    | assign hf => exact .assign (ih hf)
    | gap hc hf => exact .gap hc (ih hf)
  | text _ h ih =>
    cases hf with
    | same hc hf => exact .same hc (ih hf)
    | text ho hf => exact .text ho (ih hf)
    | gap hc hf => exact .gap hc (ih hf)

inductive TokGens : List Cmd → List Cmd → List Gen → List Gen → Prop
  | nil : TokGens [] [] [] []
  | cons {c c' cs cs' g g' gs gs'} : TokGen c c' g g' → TokGens cs cs' gs gs' →
      TokGens (c :: cs) (c' :: cs') (g :: gs) (g' :: gs')

/-- Entries of the collections: the same, or for an edited literal anything. -/
inductive CollTwin : Coll → Coll → Prop
  | nil : CollTwin [] []
  | same {x cs cs'} : CollTwin cs cs' → CollTwin (x :: cs) (x :: cs')
  | text {a b m g g' v v' cs cs'} : OwnText m a b → CollTwin cs cs' →
      CollTwin ((.lit a m, g, v) :: cs) ((.lit b m, g', v') :: cs')

/-- Frames of the combinatorial sampler for corresponding tokens. -/
inductive FrameTwin : List Cmd → List Cmd → SFrame → SFrame → Prop
  | done {ts ts'} : FrameTwin ts ts' .done .done
  | start {ctx ts ts'} : ctx.method = .comb → Plainly ts ts' → FrameTwin ts ts' (.start ctx ts) (.start ctx ts')
  | nf {c ts ts' f f'} : Solid c → c.method = some .random ∨ c.method = some .cyc → FrameTwin ts ts' f f' →
      FrameTwin (c :: ts) (c :: ts') (.nf c f) (.nf c f')
  | fin {ctx c c' ts ts' g g'} : ctx.method = .comb → Plainly ts ts' → TokGen c c' g g' →
      FrameTwin (c :: ts) (c' :: ts') (.fin ctx ts g) (.fin ctx ts' g')
  | finIn {ctx c c' ts ts' g g' v v' f f'} : ctx.method = .comb → Plainly ts ts' → TokGen c c' g g' → TokText c c' v v' →
      FrameTwin ts ts' f f' → FrameTwin (c :: ts) (c' :: ts') (.finIn ctx ts g v f) (.finIn ctx ts' g' v' f')

/-- The texts of a row of the combinatorial sampler. -/
def RowTwin (ts ts' : List Cmd) (x y : List Str × SFrame) : Prop := Filled ts ts' x.1 y.1 ∧ FrameTwin ts ts' x.2 y.2

theorem filled_cons {c c' : Cmd} {v v' : Str} {ts ts' : List Cmd} {row row' : List Str} (h : TokText c c' v v')
    (hf : Filled ts ts' row row') : Filled (c :: ts) (c' :: ts') (v :: row) (v' :: row') := by
  cases h with
  | same hc => exact .same hc hf
  | text ho => exact .text ho hf

section
variable {E : Env W}

theorem mkGen_plainLit (u : Option Cmd) (ctx : Ctx) (a : Str) (m : Option Method) :
    mkGen u ctx (.lit a m) = .ok (.start (ctx.withMethod (effMethod ctx.method m)) (.lit a m)) := by
  unfold mkGen chainFuel mkGenF
  rfl

theorem lift_twin {P : α → β → Prop} {x : Except Err α} {y : Except Err β}
    (h : (∃ e, x = .error e ∧ y = .error e) ∨ ∃ a b, x = .ok a ∧ y = .ok b ∧ P a b) :
    Twin P (M.lift x : M W α) (M.lift y : M W β) := by
  rcases h with ⟨e, rfl, rfl⟩ | ⟨a, b, rfl, rfl, h⟩
  · exact .raise e
  · exact .pure h

theorem except_same {P : α → α → Prop} (h : ∀ a, P a a) (x : Except Err α) :
    (∃ e, x = .error e ∧ x = .error e) ∨ ∃ a b, x = .ok a ∧ x = .ok b ∧ P a b := by
  cases x with
  | error e => exact .inl ⟨e, rfl, rfl⟩
  | ok a => exact .inr ⟨a, a, rfl, rfl, h a⟩

theorem mkGens_twin (u : Option Cmd) (ctx : Ctx) {ts ts' : List Cmd} (h : Plainly ts ts') :
    (∃ e, mkGens u ctx ts = .error e ∧ mkGens u ctx ts' = .error e) ∨
      ∃ gs gs', mkGens u ctx ts = .ok gs ∧ mkGens u ctx ts' = .ok gs' ∧ TokGens ts ts' gs gs' := by
  induction h with
  | nil => exact .inr ⟨[], [], rfl, rfl, .nil⟩
  | same hc h ih =>
    simp only [mkGens]
    cases mkGen u ctx _ with
    | error e => exact .inl ⟨e, rfl, rfl⟩
    | ok g =>
      rcases ih with ⟨e, h1, h2⟩ | ⟨gs, gs', h1, h2, h3⟩
      · exact .inl ⟨e, by rw [h1], by rw [h2]⟩
      · exact .inr ⟨g :: gs, g :: gs', by rw [h1], by rw [h2], .cons (.same hc) h3⟩
  | text ho h ih =>
    simp only [mkGens, mkGen_plainLit]
    rcases ih with ⟨e, h1, h2⟩ | ⟨gs, gs', h1, h2, h3⟩
    · exact .inl ⟨e, by rw [h1], by rw [h2]⟩
    · exact .inr ⟨_, _, by rw [h1], by rw [h2], .cons (.lit ho) h3⟩

/-- The four kinds of `next`, as far as needed. -/
structure TwinRecs (r : Recs W) : Prop where
  G : ∀ c c' g g', TokGen c c' g g' →
    Twin (TwinOpt fun x y => TokText c c' x.1 y.1 ∧ TokGen c c' x.2 y.2) (r.G g) (r.G g')
  S : ∀ ts ts' coll coll' f f', CollTwin coll coll' → FrameTwin ts ts' f f' →
    Twin (fun x y => CollTwin x.1 y.1 ∧ TwinOpt (RowTwin ts ts') x.2 y.2) (r.S coll f) (r.S coll' f')

theorem tokGen_twin {r : Recs W} (hr : TwinRecs r) {c c' : Cmd} {g g' : Gen} (h : TokGen c c' g g') :
    Twin (TwinOpt fun x y => TokText c c' x.1 y.1 ∧ TokGen c c' x.2 y.2) (stepG E r g) (stepG E r g') := by
  cases h with
  | same hc =>
    refine .refl (fun a => ?_) _
    cases a with
    | none => trivial
    | some x => exact ⟨.same hc, .same hc⟩
  | lit ho =>
    rename_i ctx a b m
    simp only [stepG]
    cases ctx.method with
    | random => exact .pure ⟨.text ho, .rep ho⟩
    | cyc => exact .pure ⟨.text ho, .rep ho⟩
    | comb => exact .pure ⟨.text ho, .done ho⟩
  | rep ho => exact .pure ⟨.text ho, .rep ho⟩
  | done => exact .pure trivial

variable {r : Recs W} (hr : TwinRecs r)
include hr

theorem next!_twin {c c' : Cmd} {g g' : Gen} (h : TokGen c c' g g') :
    Twin (fun x y => TokText c c' x.1 y.1 ∧ TokGen c c' x.2 y.2) (r.next! g) (r.next! g') := by
  unfold Recs.next!
  refine (hr.G c c' g g' h).bind fun a b hab => ?_
  cases a with
  | none =>
    cases b with
    | none => exact .raise _
    | some y => exact hab.elim
  | some x =>
    cases b with
    | none => exact hab.elim
    | some y => exact .pure hab

theorem rotate_twin {ts ts' : List Cmd} {gs gs' : List Gen} (h : TokGens ts ts' gs gs') :
    Twin (fun x y => Filled ts ts' x.1 y.1 ∧ TokGens ts ts' x.2 y.2) (r.rotate gs) (r.rotate gs') := by
  induction h with
  | nil => exact .pure ⟨.nil, .nil⟩
  | cons hg _ ih =>
    unfold Recs.rotate
    exact (next!_twin hr hg).bind fun x y hxy => ih.bind fun u v huv =>
      .pure ⟨filled_cons hxy.1 huv.1, .cons hxy.2 huv.2⟩

omit hr in
theorem assigns_twin (r : Recs W) (ctx : Ctx) {ts ts' : List Cmd} (h : Edited ts ts') :
    Twin (fun x y => KeptToks ts ts' x.1 y.1 ∧ x.2 = y.2) (r.assigns E ctx ts) (r.assigns E ctx ts') := by
  induction h with
  | nil => exact .pure ⟨.nil, rfl⟩
  | @same c ts ts' _ ih =>
    cases c <;> simp only [Recs.assigns]
    case assign n v i o =>
      refine (Twin.refl (P := Eq) (fun _ => rfl) _).bind fun a b hab => ih.bind fun u v huv => ?_
      subst hab
      exact .pure ⟨.assign huv.1, by rw [huv.2]⟩
    case lit a m =>
      cases m with
      | none => exact ih.bind fun u v huv => .pure ⟨.text (.inl rfl) huv.1, huv.2⟩
      | some m =>
        cases m with
        | comb => exact ih.bind fun u v huv => .pure ⟨.text (.inr ⟨rfl, rfl⟩) huv.1, huv.2⟩
        | _ => exact ih.bind fun u v huv => .pure ⟨.same ⟨by simp, by simp, by simp⟩ huv.1, huv.2⟩
    all_goals exact ih.bind fun u v huv => .pure ⟨.same ⟨by simp, by simp, by simp⟩ huv.1, huv.2⟩
  | text _ ih =>
    simp only [Recs.assigns]
    exact ih.bind fun u v huv => .pure ⟨.text (.inl rfl) huv.1, huv.2⟩

theorem firstValues_twin {ts ts' : List Cmd} {gs gs' : List Gen} (h : TokGens ts ts' gs gs') :
    Twin CollTwin (r.firstValues (ts.zip gs)) (r.firstValues (ts'.zip gs')) := by
  induction h with
  | nil => exact .pure .nil
  | cons hg _ ih =>
    simp only [List.zip_cons_cons, Recs.firstValues]
    refine (next!_twin hr hg).bind fun x y hxy => ih.bind fun u v huv => .pure ?_
    obtain ⟨s, g⟩ := x
    obtain ⟨s', g'⟩ := y
    obtain ⟨h1, h2⟩ := hxy
    cases h2 with
    | same hc =>
      cases h1 with
      | same => exact .same huv
      | text ho => exact .text ho huv
    | lit ho => exact .text ho huv
    | rep ho => exact .text ho huv
    | done ho => exact .text ho huv

omit hr in
theorem edited_filter {ts ts' : List Cmd} (h : Plainly ts ts') :
    Plainly (ts.filter fun c => c.method ≠ some .comb) (ts'.filter fun c => c.method ≠ some .comb) := by
  induction h with
  | nil => exact .nil
  | @same c _ _ hs _ ih =>
    by_cases hc : c.method = some .comb
    · simpa [List.filter_cons, hc] using ih
    · simpa [List.filter_cons, hc] using Plainly.same hs ih
  | text ho _ ih =>
    rcases ho with rfl | ⟨rfl, rfl⟩
    · simpa [List.filter_cons, Cmd.method] using Plainly.text (.inl rfl) ih
    · simpa [List.filter_cons, Cmd.method] using ih

theorem getValue_twin {c : Cmd} (hc : c.method = some .random ∨ c.method = some .cyc) {coll coll' : Coll} (h : CollTwin coll coll') :
    Twin (fun x y => x.1 = y.1 ∧ CollTwin x.2 y.2) (r.getValue c coll) (r.getValue c coll') := by
  induction h with
  | nil => exact .raise _
  | @same x cs cs' h' ih =>
    obtain ⟨c', g, v⟩ := x
    unfold Recs.getValue
    by_cases e : c' = c
    · simp only [e, if_true]
      refine (Twin.refl (P := Eq) (fun _ => rfl) (r.G g)).bind fun a b hab => ?_
      subst hab
      cases a with
      | none => exact .pure ⟨rfl, .same h'⟩
      | some x => exact .pure ⟨rfl, .same h'⟩
    · simp only [e, if_false]
      exact ih.bind fun a b hab => .pure ⟨hab.1, .same hab.2⟩
  | text ho _ ih =>
    have hne : ∀ s m, OwnText m s s → c ≠ .lit s m := by
      rintro s m ho rfl
      rcases ho with rfl | ⟨rfl, _⟩ <;> rcases hc with hc | hc <;> cases hc
    have h1 : ∀ {m : Option Method} {a b : Str}, OwnText m a b → OwnText m a a ∧ OwnText m b b := by
      rintro m a b (h | ⟨h, _⟩)
      · exact ⟨.inl h, .inl h⟩
      · exact ⟨.inr ⟨h, rfl⟩, .inr ⟨h, rfl⟩⟩
    unfold Recs.getValue
    rw [if_neg fun e => hne _ _ (h1 ho).1 e.symm, if_neg fun e => hne _ _ (h1 ho).2 e.symm]
    exact ih.bind fun a b hab => .pure ⟨hab.1, .text ho hab.2⟩

theorem stepS_twin {ts ts' : List Cmd} {coll coll' : Coll} {f f' : SFrame} (hcoll : CollTwin coll coll')
    (h : FrameTwin ts ts' f f') :
    Twin (fun x y => CollTwin x.1 y.1 ∧ TwinOpt (RowTwin ts ts') x.2 y.2) (stepS E r coll f) (stepS E r coll' f') := by
  cases h with
  | done => exact .pure ⟨hcoll, trivial⟩
  | start hm he =>
    rename_i ctx
    cases he with
    | nil => exact .pure ⟨hcoll, .nil, .done⟩
    | @same c ts ts' hs he =>
      simp only [stepS]
      by_cases hnf : (ctx.effective c).nonfinite = true
      · simp only [hnf, if_true]
        refine hr.S _ _ _ _ _ _ hcoll (.nf hs ?_ (.start hm he))
        unfold Ctx.effective at hnf
        cases hcm : c.method with
        | none => rw [hcm, hm] at hnf; cases hnf
        | some m => rw [hcm] at hnf; cases m <;> first | exact .inl rfl | exact .inr rfl | cases hnf
      · simp only [hnf]
        refine (lift_twin (except_same (P := fun g g' => TokGen c c g g') (fun _ => .same hs) _)).bind fun g g' hg => ?_
        exact hr.S _ _ _ _ _ _ hcoll (.fin hm he hg)
    | @text a b m ts ts' ho he =>
      have hfin : ∀ s, (ctx.effective (.lit s m)).nonfinite = false := by
        intro s
        rcases ho with rfl | ⟨rfl, _⟩ <;> simp [Ctx.effective, Cmd.method, hm, Method.nonfinite]
      simp only [stepS, hfin, mkGen_plainLit]
      exact hr.S _ _ _ _ _ _ hcoll (.fin hm he (.lit ho))
  | nf hs hc hf =>
    refine (hr.S _ _ _ _ _ _ hcoll hf).bind fun x y hxy => ?_
    obtain ⟨k, x⟩ := x
    obtain ⟨k', y⟩ := y
    obtain ⟨hk, hxy⟩ := hxy
    cases x with
    | none =>
      cases y with
      | none => exact .pure ⟨hk, trivial⟩
      | some y => exact hxy.elim
    | some x =>
      cases y with
      | none => exact hxy.elim
      | some y =>
        obtain ⟨vs, fr⟩ := x
        obtain ⟨vs', fr'⟩ := y
        refine (getValue_twin hr hc hk).bind fun a b hab => ?_
        obtain ⟨v, k⟩ := a
        obtain ⟨v', k'⟩ := b
        obtain ⟨e, hk⟩ := hab
        simp only at e
        subst e
        cases v with
        | none => exact .pure ⟨hk, .gap hc hxy.1, .nf hs hc hxy.2⟩
        | some v => exact .pure ⟨hk, .same hs hxy.1, .nf hs hc hxy.2⟩
  | fin hm he hg =>
    refine (hr.G _ _ _ _ hg).bind fun x y hxy => ?_
    cases x with
    | none =>
      cases y with
      | none => exact .pure ⟨hcoll, trivial⟩
      | some y => exact hxy.elim
    | some x =>
      cases y with
      | none => exact hxy.elim
      | some y => exact hr.S _ _ _ _ _ _ hcoll (.finIn hm he hxy.2 hxy.1 (.start hm he))
  | finIn hm he hg hv hf =>
    refine (hr.S _ _ _ _ _ _ hcoll hf).bind fun x y hxy => ?_
    obtain ⟨k, x⟩ := x
    obtain ⟨k', y⟩ := y
    obtain ⟨hk, hxy⟩ := hxy
    cases x with
    | none =>
      cases y with
      | none => exact hr.S _ _ _ _ _ _ hk (.fin hm he hg)
      | some y => exact hxy.elim
    | some x =>
      cases y with
      | none => exact hxy.elim
      | some y => exact .pure ⟨hk, filled_cons hv hxy.1, .finIn hm he hg hv hxy.2⟩

end

theorem recs_twin (E : Env W) (n : Nat) : TwinRecs (recs E n) := by
  induction n with
  | zero => exact ⟨fun _ _ _ _ _ => .diverge, fun _ _ _ _ _ _ _ _ => .diverge⟩
  | succ n ih => exact ⟨fun c c' g g' h => tokGen_twin ih h, fun ts ts' _ _ _ _ hc hf => stepS_twin ih hc hf⟩

/-! ### The whole sequence -/

/-- The generators of the two sequences. -/
inductive TopTwin (sep : Str) (m : Method) (ts ts' : List Cmd) : Gen → Gen → Prop
  | start {ctx o} : ctx.method = m → Edited ts ts' → TopTwin sep m ts ts' (.start ctx (.seq ts sep o)) (.start ctx (.seq ts' sep o))
  | rot {us us' gs gs'} : m ≠ .comb → KeptToks ts ts' us us' → TokGens us us' gs gs' →
      TopTwin sep m ts ts' (.seqNF sep gs) (.seqNF sep gs')
  | comb {us us' coll coll' f f'} : m = .comb → KeptToks ts ts' us us' → CollTwin coll coll' →
      FrameTwin (sentinel :: us ++ [sentinel]) (sentinel :: us' ++ [sentinel]) f f' →
      TopTwin sep m ts ts' (.combSeq sep coll f) (.combSeq sep coll' f')
  | done : TopTwin sep m ts ts' .done .done

/-- Corresponding prompts. -/
def TextTwin (sep : Str) (m : Method) (ts ts' : List Cmd) (x y : Str) : Prop :=
  ∃ row row', Filled ts ts' row row' ∧ x = joined sep (if m = .comb then [] :: row ++ [[]] else row) ∧
    y = joined sep (if m = .comb then [] :: row' ++ [[]] else row')

theorem filled_sentinel {row row' : List Str} (h : Filled [sentinel] [sentinel] row row') : row = [[]] ∧ row' = [[]] := by
  unfold sentinel at h
  cases h with
  | same hc _ => exact absurd rfl (hc.2.1 [])
  | text _ h => cases h; exact ⟨rfl, rfl⟩
  | gap hc _ => rcases hc with hc | hc <;> cases hc

theorem filled_snoc {us us' : List Cmd} (hp : Plainly us us') {row row' : List Str}
    (h : Filled (us ++ [sentinel]) (us' ++ [sentinel]) row row') :
    ∃ r r', row = r ++ [[]] ∧ row' = r' ++ [[]] ∧ Filled us us' r r' := by
  induction hp generalizing row row' with
  | nil => obtain ⟨rfl, rfl⟩ := filled_sentinel h; exact ⟨[], [], rfl, rfl, .nil⟩
  | same hc _ ih =>
    cases h with
    | same hs h => obtain ⟨r, r', rfl, rfl, h2⟩ := ih h; exact ⟨_, _, rfl, rfl, .same hs h2⟩
    | text ho h => obtain ⟨r, r', rfl, rfl, h2⟩ := ih h; exact ⟨_, _, rfl, rfl, .text ho h2⟩
    | assign h => obtain ⟨r, r', rfl, rfl, h2⟩ := ih h; exact ⟨_, _, rfl, rfl, .assign h2⟩
    | gap hg h => obtain ⟨r, r', rfl, rfl, h2⟩ := ih h; exact ⟨_, _, rfl, rfl, .gap hg h2⟩
  | text ho _ ih =>
    cases h with
    | same hs h => obtain ⟨r, r', rfl, rfl, h2⟩ := ih h; exact ⟨_, _, rfl, rfl, .same hs h2⟩
    | text ho h => obtain ⟨r, r', rfl, rfl, h2⟩ := ih h; exact ⟨_, _, rfl, rfl, .text ho h2⟩
    | gap hg h => obtain ⟨r, r', rfl, rfl, h2⟩ := ih h; exact ⟨_, _, rfl, rfl, .gap hg h2⟩

theorem filled_framed {us us' : List Cmd} (hp : Plainly us us') {row row' : List Str}
    (h : Filled (sentinel :: us ++ [sentinel]) (sentinel :: us' ++ [sentinel]) row row') :
    ∃ r r', row = [] :: r ++ [[]] ∧ row' = [] :: r' ++ [[]] ∧ Filled us us' r r' := by
  unfold sentinel at h
  cases h with
  | same hc _ => exact absurd rfl (hc.2.1 [])
  | gap hc _ => rcases hc with hc | hc <;> cases hc
  | text _ h => obtain ⟨r, r', rfl, rfl, h2⟩ := filled_snoc hp h; exact ⟨r, r', rfl, rfl, h2⟩

theorem TextTwin.opt_step {sep : Str} {m : Method} {ts ts' : List Cmd} {E : Env W} {n : Nat}
    {g g' : Gen} (h : TopTwin sep m ts ts' g g') :
    Twin (TwinOpt fun x y => TextTwin sep m ts ts' x.1 y.1 ∧ TopTwin sep m ts ts' x.2 y.2)
      ((recs E n).G g) ((recs E n).G g') := by
  induction n generalizing g g' with
  | zero => exact .diverge
  | succ n ih =>
    show Twin _ (stepG E (recs E n) g) (stepG E (recs E n) g')
    cases h with
    | done => exact .pure trivial
    | rot hm hk hg =>
      simp only [stepG]
      refine (rotate_twin (recs_twin E n) hg).bind fun x y hxy => .pure ?_
      exact ⟨⟨x.1, y.1, hk.filled hxy.1, by rw [if_neg hm], by rw [if_neg hm]⟩, .rot hm hk hxy.2⟩
    | comb hm hk hc hf =>
      simp only [stepG]
      refine ((recs_twin E n).S _ _ _ _ _ _ hc hf).bind fun x y hxy => ?_
      obtain ⟨k, x⟩ := x
      obtain ⟨k', y⟩ := y
      obtain ⟨hk', hxy⟩ := hxy
      cases x with
      | none =>
        cases y with
        | none => exact .pure trivial
        | some y => exact hxy.elim
      | some x =>
        cases y with
        | none => exact hxy.elim
        | some y =>
          obtain ⟨vs, fr⟩ := x
          obtain ⟨vs', fr'⟩ := y
          obtain ⟨h1, h2⟩ := hxy
          obtain ⟨r, r', e1, e2, h3⟩ := filled_framed hk.edited h1
          simp only at e1 e2
          refine .pure ⟨⟨r, r', hk.filled h3, ?_, ?_⟩, .comb hm hk hk' h2⟩
          · rw [if_pos hm, e1]
          · rw [if_pos hm, e2]
    | @start ctx o hm he =>
      simp only [stepG, startG]
      refine Twin.bind (P := TopTwin sep m ts ts') ?_ fun a b hab => ih hab
      refine (assigns_twin (recs E n) ctx he).bind fun x y hxy => ?_
      obtain ⟨us, new⟩ := x
      obtain ⟨us', new'⟩ := y
      obtain ⟨hk, e⟩ := hxy
      simp only at hk e
      subst e
      cases hmm : ctx.method with
      | comb =>
        simp only []
        refine Twin.bind (P := CollTwin) ?_ fun a b hab => .pure ?_
        · unfold Recs.mkColl
          exact (lift_twin (mkGens_twin _ _ (edited_filter hk.edited))).bind fun a b hab =>
            firstValues_twin (recs_twin E n) hab
        · exact .comb (hm ▸ hmm) hk hab (.start hmm (.text (.inr ⟨rfl, rfl⟩)
            (hk.edited.append (.text (.inr ⟨rfl, rfl⟩) .nil))))
      | random =>
        exact (lift_twin (mkGens_twin _ _ hk.edited)).bind fun a b hab =>
          .pure (.rot (fun e => by rw [hmm, e] at hm; cases hm) hk hab)
      | cyc =>
        exact (lift_twin (mkGens_twin _ _ hk.edited)).bind fun a b hab =>
          .pure (.rot (fun e => by rw [hmm, e] at hm; cases hm) hk hab)

/-- With or without squashing of whitespace. -/
def SquashTwin (E : Env W) (sep : Str) (m : Method) (ts ts' : List Cmd) (g g' : Gen) : Prop :=
  if E.ignoreWs then ∃ a b, g = .squash a ∧ g' = .squash b ∧ TopTwin sep m ts ts' a b else TopTwin sep m ts ts' g g'

/-- Corresponding prompts, with or without squashing of whitespace. -/
def AssembledTwin (E : Env W) (sep : Str) (m : Method) (ts ts' : List Cmd) (t t' : Str) : Prop :=
  ∃ row row', Filled ts ts' row row' ∧ t = assembled E m sep row ∧ t' = assembled E m sep row'

theorem squash_step {E : Env W} {sep : Str} {m : Method} {ts ts' : List Cmd} {n : Nat}
    {g g' : Gen} (h : SquashTwin E sep m ts ts' g g') :
    Twin (TwinOpt fun x y => AssembledTwin E sep m ts ts' x.1 y.1 ∧ SquashTwin E sep m ts ts' x.2 y.2)
      (nextG E n g) (nextG E n g') := by
  unfold nextG
  unfold SquashTwin AssembledTwin assembled at *
  by_cases hw : E.ignoreWs = true
  · rw [if_pos hw] at h
    obtain ⟨a, b, rfl, rfl, h⟩ := h
    cases n with
    | zero => exact .diverge
    | succ n =>
      show Twin _ (stepG E (recs E n) (.squash a)) (stepG E (recs E n) (.squash b))
      simp only [stepG]
      refine (TextTwin.opt_step h).bind fun x y hxy => ?_
      cases x with
      | none =>
        cases y with
        | none => exact .pure trivial
        | some y => exact hxy.elim
      | some x =>
        cases y with
        | none => exact hxy.elim
        | some y =>
          obtain ⟨⟨row, row', h1, h2, h3⟩, h4⟩ := hxy
          refine .pure ⟨⟨row, row', h1, ?_, ?_⟩, ?_⟩
          · simp only [hw, if_true, ← h2]
          · simp only [hw, if_true, ← h3]
          · simp only [hw, if_true]; exact ⟨_, _, rfl, rfl, h4⟩
  · rw [if_neg hw] at h
    refine (TextTwin.opt_step h).weaken fun x y hxy => ?_
    cases x with
    | none =>
      cases y with
      | none => trivial
      | some y => exact hxy.elim
    | some x =>
      cases y with
      | none => exact hxy.elim
      | some y =>
        obtain ⟨⟨row, row', h1, h2, h3⟩, h4⟩ := hxy
        refine ⟨⟨row, row', h1, ?_, ?_⟩, ?_⟩
        · simp only [hw]; exact h2
        · simp only [hw]; exact h3
        · simp only [hw]; exact h4

theorem collect_twin {E : Env W} {sep : Str} {m : Method} {ts ts' : List Cmd} {n : Nat} (k : Nat)
    {g g' : Gen} (h : SquashTwin E sep m ts ts' g g') (w : W) :
    List.Forall₂ (AssembledTwin E sep m ts ts') (collect E n k g w).1 (collect E n k g' w).1 ∧
      EndAlike (collect E n k g w).2 (collect E n k g' w).2 := by
  induction k generalizing g g' w with
  | zero => exact ⟨.nil, rfl⟩
  | succ k ih =>
    have hs := squash_step (n := n) h w
    unfold collect
    cases hx : nextG E n g w with
    | ok x w1 =>
      cases hy : nextG E n g' w with
      | ok y w2 =>
        rw [hx, hy] at hs
        obtain ⟨hs, rfl⟩ := hs
        cases x with
        | none =>
          cases y with
          | none => exact ⟨.nil, rfl⟩
          | some y => exact hs.elim
        | some x =>
          cases y with
          | none => exact hs.elim
          | some y => exact ⟨.cons hs.1 (ih hs.2 w1).1, (ih hs.2 w1).2⟩
      | err e w2 => rw [hx, hy] at hs; exact hs.elim
      | fuel => rw [hx, hy] at hs; exact hs.elim
    | err e w1 =>
      cases hy : nextG E n g' w with
      | ok y w2 => rw [hx, hy] at hs; exact hs.elim
      | err e w2 => rw [hx, hy] at hs; exact ⟨.nil, hs⟩
      | fuel => rw [hx, hy] at hs; exact hs.elim
    | fuel =>
      cases hy : nextG E n g' w with
      | ok y w2 => rw [hx, hy] at hs; exact hs.elim
      | err e w2 => rw [hx, hy] at hs; exact hs.elim
      | fuel => exact ⟨.nil, trivial⟩

theorem mkGen_seqTwin (u : Option Cmd) (ctx : Ctx) (ts : List Cmd) (sep : Str) (m : Option Method) :
    mkGen u ctx (.seq ts sep m) = .ok (.start (ctx.withMethod (effMethod ctx.method m)) (.seq ts sep m)) := by
  unfold mkGen chainFuel mkGenF
  rfl

theorem edited_length {ts ts' : List Cmd} (h : Edited ts ts') : ts.length = ts'.length := by
  induction h with
  | nil => rfl
  | same _ ih => simp [ih]
  | text _ ih => simp [ih]

end Verif
