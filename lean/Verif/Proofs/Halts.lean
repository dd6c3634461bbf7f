import Verif.Proofs.Limit
import Verif.Proofs.Causes
import Verif.Spec.Hangs
/-! Generators that always answer, and generators that come to an end. -/

namespace Verif
open Spec
variable {W : Type} {E : Env W}

/-- `x` answers in every world, and its results satisfy `P`. -/
def Halts {α : Type} (P : α → Prop) (x : M W α) : Prop :=
  ∀ w, x w ≠ .fuel ∧ ∀ a w', x w = .ok a w' → P a

section halts
variable {α β : Type}

theorem Halts.pure {P : α → Prop} {a : α} (h : P a) : Halts P (Pure.pure a : M W α) := by
  intro w
  refine ⟨fun h => (by cases h), fun b w1 hb => ?_⟩
  simp only [M.pure_eq, Res.ok.injEq] at hb
  exact hb.1 ▸ h

theorem Halts.raise {P : α → Prop} {e : Err} : Halts P (M.raise e : M W α) :=
  fun _ => ⟨fun h => (by cases h), fun _ _ h => by cases h⟩

theorem Halts.lift {P : α → Prop} {x : Except Err α} (h : ∀ a, x = .ok a → P a) : Halts P (M.lift x : M W α) := by
  cases x with
  | ok a => exact .pure (h a rfl)
  | error e => exact .raise

theorem Halts.bind {P : α → Prop} {Q : β → Prop} {x : M W α} {f : α → M W β} (hx : Halts P x)
    (hf : ∀ a, P a → Halts Q (f a)) : Halts Q (x >>= f) := by
  intro w
  rw [M.bind_eq]
  cases hxw : x w with
  | ok a w1 => exact hf a ((hx w).2 a w1 hxw) w1
  | err e w1 => exact ⟨fun h => (by cases h), fun _ _ h => by cases h⟩
  | fuel => exact absurd hxw (hx w).1

theorem Halts.weaken {P Q : α → Prop} {x : M W α} (h : Halts P x) (hq : ∀ a, P a → Q a) : Halts Q x :=
  fun w => ⟨(h w).1, fun a w1 ha => hq a ((h w).2 a w1 ha)⟩

theorem Halts.and {P Q : α → Prop} {x : M W α} (h : Halts P x) (hq : ∀ a w w', x w = .ok a w' → Q a) :
    Halts (fun a => P a ∧ Q a) x :=
  fun w => ⟨(h w).1, fun a w1 ha => ⟨(h w).2 a w1 ha, hq a w w1 ha⟩⟩

end halts

theorem lim_S (E : Env W) (c : Coll) (f : SFrame) : (lim E).S c f = stepS E (lim E) c f :=
  ((lim_conv E).S c f).shift.unique (stepS_conv (lim_conv E) E c f)

theorem lim_P (E : Env W) (f : PFrame) : (lim E).P f = stepP E (lim E) f :=
  ((lim_conv E).P f).shift.unique (stepP_conv (lim_conv E) E f)

theorem lim_good (E : Env W) : Good E (lim E) := by
  refine ⟨fun hg w o w' h => ?_, fun ha w o w' h => ?_, fun hc hs w o w' h => ?_, fun hp w o w' h => ?_⟩
  · obtain ⟨n, hn⟩ := (lim_conv E).G _ w
    exact (recs_good E n).G hg ((hn n (Nat.le_refl _)).trans h)
  · obtain ⟨n, hn⟩ := (lim_conv E).A _ w
    exact (recs_good E n).A ha ((hn n (Nat.le_refl _)).trans h)
  · obtain ⟨n, hn⟩ := (lim_conv E).S _ _ w
    exact (recs_good E n).S hc hs ((hn n (Nat.le_refl _)).trans h)
  · obtain ⟨n, hn⟩ := (lim_conv E).P _ w
    exact (recs_good E n).P hp ((hn n (Nat.le_refl _)).trans h)

/-! ### Always an answer -/

/-- In every world, now and later, the generator answers. -/
def Responds (E : Env W) (g : Gen) : Prop :=
  ∃ L : Gen → Prop, L g ∧ ∀ g, L g → Halts (After L) ((lim E).G g)

/-- The same for combination samplers. -/
def RespondsA (E : Env W) (a : Arr) : Prop :=
  ∃ L : Arr → Prop, L a ∧ ∀ a, L a → Halts (After L) ((lim E).A a)

theorem After.mono {α γ : Type} {P Q : γ → Prop} (h : ∀ x, P x → Q x) {o : Option (α × γ)} (ho : After P o) :
    After Q o := by
  cases o with
  | none => trivial
  | some x => exact h _ ho

theorem Responds.out {g : Gen} (h : Responds E g) : Halts (After (Responds E)) ((lim E).G g) := by
  obtain ⟨L, hg, hL⟩ := h
  exact (hL g hg).weaken fun _ => After.mono fun x hx => ⟨L, hx, hL⟩

theorem RespondsA.out {a : Arr} (h : RespondsA E a) : Halts (After (RespondsA E)) ((lim E).A a) := by
  obtain ⟨L, hg, hL⟩ := h
  exact (hL a hg).weaken fun _ => After.mono fun x hx => ⟨L, hx, hL⟩

theorem Responds.coind (L : Gen → Prop) {g : Gen} (hg : L g)
    (h : ∀ g, L g → Halts (After fun x => L x ∨ Responds E x) (stepG E (lim E) g)) : Responds E g := by
  refine ⟨fun x => L x ∨ Responds E x, .inl hg, ?_⟩
  rintro g (hg | hg)
  · rw [lim_G]; exact h g hg
  · exact hg.out.weaken fun _ => After.mono fun x hx => .inr hx

theorem RespondsA.coind (L : Arr → Prop) {a : Arr} (ha : L a)
    (h : ∀ a, L a → Halts (After fun x => L x ∨ RespondsA E x) (stepA E (lim E) a)) : RespondsA E a := by
  refine ⟨fun x => L x ∨ RespondsA E x, .inl ha, ?_⟩
  rintro a (ha | ha)
  · rw [lim_A]; exact h a ha
  · exact ha.out.weaken fun _ => After.mono fun x hx => .inr hx

theorem Responds.of_step {g : Gen} (h : Halts (After (Responds E)) (stepG E (lim E) g)) : Responds E g :=
  .coind (fun x => x = g) rfl fun x hx => by
    subst hx
    exact h.weaken fun _ => After.mono fun _ => .inr

theorem RespondsA.of_step {a : Arr} (h : Halts (After (RespondsA E)) (stepA E (lim E) a)) : RespondsA E a :=
  .coind (fun x => x = a) rfl fun x hx => by
    subst hx
    exact h.weaken fun _ => After.mono fun _ => .inr

theorem Responds.done : Responds E .done := .of_step (.pure trivial)

theorem Responds.rep {s : Str} : Responds E (.rep s) :=
  .coind (fun x => x = .rep s) rfl fun x hx => by subst hx; exact .pure (.inl rfl)

theorem Responds.next! {g : Gen} (h : Responds E g) : Halts (fun x => Responds E x.2) ((lim E).next! g) := by
  unfold Recs.next!
  refine h.out.bind fun a ha => ?_
  cases a with
  | none => exact .raise
  | some x => exact .pure ha

theorem rotate_safe {gs : List Gen} (h : ∀ g ∈ gs, Responds E g) :
    Halts (fun x => ∀ g ∈ x.2, Responds E g) ((lim E).rotate gs) := by
  induction gs with
  | nil => exact .pure (by simp)
  | cons g gs ih =>
    refine (h g (by simp)).next!.bind fun x hx => (ih fun g hg => h g (by simp [hg])).bind fun y hy => .pure ?_
    intro z hz
    rcases List.mem_cons.1 hz with rfl | hz
    · exact hx
    · exact hy z hz

theorem Responds.seqNF {sep : Str} {gens : List Gen} (h : ∀ g ∈ gens, Responds E g) : Responds E (.seqNF sep gens) :=
  .coind (fun x => ∃ gens, x = .seqNF sep gens ∧ ∀ g ∈ gens, Responds E g) ⟨gens, rfl, h⟩ fun x hx => by
    obtain ⟨gens, rfl, h⟩ := hx
    exact (rotate_safe h).bind fun y hy => .pure (.inl ⟨_, rfl, hy⟩)

theorem Responds.zipWrap {wg ig : Gen} (hw : Responds E wg) (hi : Responds E ig) : Responds E (.zipWrap wg ig) :=
  .coind (fun x => ∃ wg ig, x = .zipWrap wg ig ∧ Responds E wg ∧ Responds E ig) ⟨wg, ig, rfl, hw, hi⟩ fun x hx => by
    obtain ⟨wg, ig, rfl, hw, hi⟩ := hx
    refine hw.out.bind fun a ha => ?_
    cases a with
    | none => exact .pure trivial
    | some a =>
      refine hi.out.bind fun b hb => ?_
      cases b with
      | none => exact .pure trivial
      | some b => exact .pure (.inl ⟨_, _, rfl, ha, hb⟩)

theorem Responds.squash {g : Gen} (h : Responds E g) : Responds E (.squash g) :=
  .coind (fun x => ∃ g, x = .squash g ∧ Responds E g) ⟨g, rfl, h⟩ fun x hx => by
    obtain ⟨g, rfl, h⟩ := hx
    refine h.out.bind fun a ha => ?_
    cases a with
    | none => exact .pure trivial
    | some a => exact .pure (.inl ⟨_, rfl, ha⟩)

theorem Responds.cycWild {q : List Gen} (h : ∀ g ∈ q, Responds E g) : Responds E (.cycWild q) :=
  .coind (fun x => ∃ q, x = .cycWild q ∧ ∀ g ∈ q, Responds E g) ⟨q, rfl, h⟩ fun x hx => by
    obtain ⟨q, rfl, h⟩ := hx
    cases q with
    | nil => exact .pure trivial
    | cons g q =>
      refine (h g (by simp)).next!.bind fun a ha => .pure (.inl ⟨_, rfl, ?_⟩)
      intro x hx
      rcases List.mem_append.1 hx with hx | hx
      · exact h x (by simp [hx])
      · simp only [List.mem_singleton] at hx; subst hx; exact ha

theorem Responds.cycVar {sep : Str} {q : List Arr} (hne : q ≠ []) (h : ∀ a ∈ q, RespondsA E a) : Responds E (.cycVar sep q) :=
  .coind (fun x => ∃ q, x = .cycVar sep q ∧ q ≠ [] ∧ ∀ a ∈ q, RespondsA E a) ⟨q, rfl, hne, h⟩ fun x hx => by
    obtain ⟨q, rfl, hne, h⟩ := hx
    cases q with
    | nil => exact absurd rfl hne
    | cons g q =>
      refine (h g (by simp)).out.bind fun a ha => ?_
      cases a with
      | none => exact .raise
      | some a =>
        refine .pure (.inl ⟨_, rfl, by simp, ?_⟩)
        intro x hx
        rcases List.mem_append.1 hx with hx | hx
        · exact h x (by simp [hx])
        · simp only [List.mem_singleton] at hx; subst hx; exact ha

theorem RespondsA.done : RespondsA E .done := .of_step (.pure trivial)

theorem RespondsA.nil : RespondsA E .nil :=
  .coind (fun x => x = .nil) rfl fun x hx => by subst hx; exact .pure (.inl rfl)

theorem RespondsA.node {g : Gen} {rest : Arr} (hg : Responds E g) (hr : RespondsA E rest) : RespondsA E (.node g rest) :=
  .coind (fun x => ∃ g r, x = .node g r ∧ Responds E g ∧ RespondsA E r) ⟨g, rest, rfl, hg, hr⟩ fun x hx => by
    obtain ⟨g, r, rfl, hg, hr⟩ := hx
    refine hr.out.bind fun a ha => ?_
    cases a with
    | none => exact .pure trivial
    | some a =>
      refine hg.out.bind fun b hb => ?_
      cases b with
      | none => exact .pure (.inr .done)
      | some b => exact .pure (.inl ⟨_, _, rfl, hb, ha⟩)

theorem RespondsA.start {ctx : Ctx} {combo : List Cmd} (h : ∀ c ∈ combo, ∀ g, mkGen E.unknown ctx c = .ok g → Responds E g) :
    RespondsA E (.start ctx combo) := by
  induction combo with
  | nil => exact .of_step (.pure .nil)
  | cons c cs ih =>
    refine .of_step ((Halts.lift (h c (by simp))).bind fun g hg => ?_)
    exact (RespondsA.node hg (ih fun c hc => h c (by simp [hc]))).out

theorem mkGens_safe {ctx : Ctx} {cs : List Cmd} (h : ∀ c ∈ cs, ∀ g, mkGen E.unknown ctx c = .ok g → Responds E g) :
    ∀ gs, mkGens E.unknown ctx cs = .ok gs → ∀ g ∈ gs, Responds E g := by
  induction cs with
  | nil => intro gs hgs; cases hgs; simp
  | cons c cs ih =>
    intro gs hgs
    unfold mkGens at hgs
    cases e1 : mkGen E.unknown ctx c with
    | error e => rw [e1] at hgs; cases hgs
    | ok g =>
      rw [e1] at hgs
      cases e2 : mkGens E.unknown ctx cs with
      | error e => rw [e2] at hgs; cases hgs
      | ok gs' =>
        rw [e2] at hgs; cases hgs
        intro x hx
        rcases List.mem_cons.1 hx with rfl | hx
        · exact h c (by simp) _ e1
        · exact ih (fun c hc => h c (by simp [hc])) _ e2 x hx

theorem sampleGens_safe {ctx : Ctx} {ps : List Str}
    (h : ∀ v ∈ ps, ∀ g, sampleGen E ctx (.inl v) = .ok g → Responds E g) :
    ∀ gs, sampleGens E ctx ps = .ok gs → ∀ g ∈ gs, Responds E g := by
  induction ps with
  | nil => intro gs hgs; cases hgs; simp
  | cons c cs ih =>
    intro gs hgs
    unfold sampleGens at hgs
    cases e1 : sampleGen E ctx (.inl c) with
    | error e => rw [e1] at hgs; cases hgs
    | ok g =>
      rw [e1] at hgs
      cases e2 : sampleGens E ctx cs with
      | error e => rw [e2] at hgs; cases hgs
      | ok gs' =>
        rw [e2] at hgs; cases hgs
        intro x hx
        rcases List.mem_cons.1 hx with rfl | hx
        · exact h c (by simp) _ e1
        · exact ih (fun c hc => h c (by simp [hc])) _ e2 x hx

/-! ### Drawing -/

theorem choicesCum_halts {α : Type} {r : Rng W} {pop : List α} {cum : List Rat} {k : Nat} :
    Halts (fun _ => True) (r.choicesCum pop cum k) := by
  induction k with
  | zero =>
    intro w
    refine ⟨?_, fun _ _ _ => trivial⟩
    simp only [Rng.choicesCum]
    split_ifs <;> simp
  | succ k ih =>
    intro w
    refine ⟨?_, fun _ _ _ => trivial⟩
    simp only [Rng.choicesCum]
    split_ifs
    · simp
    · simp
    · simp
    · split
      · simp
      · exact (ih.bind (Q := fun _ => True) fun a _ => .pure trivial) _ |>.1

theorem chooseLoop_halts {α : Type} [DecidableEq α] {r : Rng W} {k : Nat} {vs : List α} {ws : List Rat} :
    Halts (fun _ => True) (chooseLoop r k vs ws) := by
  induction k generalizing vs ws with
  | zero => exact .pure trivial
  | succ k ih =>
    refine choicesCum_halts.bind fun ch _ => ?_
    cases ch with
    | nil => exact .raise
    | cons c cs => exact ih.bind fun _ _ => .pure trivial

theorem choose_halts {α : Type} [DecidableEq α] {r : Rng W} {k : Int} {vs : List α} {ws : List Rat} :
    Halts (fun sel => ∀ c ∈ sel, c ∈ vs) (chooseWithoutReplacement r vs ws k) := by
  have : Halts (fun _ => True) (chooseWithoutReplacement r vs ws k) := by
    unfold chooseWithoutReplacement
    split
    · exact .raise
    · dsimp only
      generalize (if ws.isEmpty = true then List.replicate vs.length 1 else ws) = ws'
      split
      · exact .raise
      · split
        · exact .pure trivial
        · exact .pure trivial
        · exact chooseLoop_halts
  exact fun w => ⟨(this w).1, fun a w' h c hc => (choose_ok h).1.subset hc⟩

theorem randint_halts {r : Rng W} {a b : Int} : Halts (fun _ => True) (r.randint a b) := by
  intro w
  refine ⟨?_, fun _ _ _ => trivial⟩
  unfold Rng.randint
  split <;> simp

theorem choice_halts {α : Type} {r : Rng W} {l : List α} : Halts (fun _ => True) (r.choice l) := by
  intro w
  refine ⟨?_, fun _ _ _ => trivial⟩
  unfold Rng.choice
  split <;> simp

theorem weightedNext_halts {r : Rng W} {items : List Item} {buf : List Str} :
    Halts (fun _ => True) (weightedNext r items buf) := by
  unfold weightedNext
  split
  · exact choice_halts.bind fun _ _ => .pure trivial
  · split
    · exact .pure trivial
    · refine choicesCum_halts.bind fun vs _ => ?_
      cases vs with
      | nil => exact .raise
      | cons v vs => exact .pure trivial

theorem Responds.randVar {ctx : Ctx} {opts : List (Cmd × Rat)} {lo hi : Int} {sep : Str}
    (h : ∀ p ∈ opts, ∀ g, mkGen E.unknown ctx p.1 = .ok g → Responds E g) : Responds E (.randVar ctx opts lo hi sep) :=
  .coind (fun x => ∃ lo hi, x = .randVar ctx opts lo hi sep) ⟨lo, hi, rfl⟩ fun x hx => by
    obtain ⟨lo, hi, rfl⟩ := hx
    refine randint_halts.bind fun k _ => choose_halts.bind fun sel hsel => ?_
    refine (Halts.lift (mkGens_safe fun c hc => ?_)).bind fun gens hg => ?_
    · obtain ⟨p, hp, rfl⟩ := List.mem_map.1 (hsel c hc)
      exact h p hp
    · split
      · exact .pure (.inl ⟨_, _, rfl⟩)
      · exact (rotate_safe hg).bind fun y _ => .pure (.inl ⟨_, _, rfl⟩)

/-- A random wildcard answers if every value gives a text at once. -/
theorem Responds.randWild {ctx : Ctx} {items : List Item} {buf : List Str} (hb : ∀ x ∈ buf, x ∈ items.map Item.content)
    (h : ∀ i ∈ items, ∀ g, sampleGen E ctx (.inl i.content) = .ok g → Halts (fun o => o ≠ none) ((lim E).G g)) :
    Responds E (.randWild ctx items buf) :=
  .coind (fun x => ∃ buf, x = .randWild ctx items buf ∧ ∀ x ∈ buf, x ∈ items.map Item.content) ⟨buf, rfl, hb⟩
    fun x hx => by
      obtain ⟨buf, rfl, hb⟩ := hx
      refine Halts.bind (P := fun x : Str × List Str => x.1 ∈ items.map Item.content ∧ ∀ y ∈ x.2, y ∈ items.map Item.content)
        (fun w => ⟨(weightedNext_halts w).1, fun a w' h => weightedNext_ok h hb⟩) fun x hx => ?_
      obtain ⟨i, hi, hie⟩ := List.mem_map.1 hx.1
      refine Halts.bind (Halts.lift (fun g hg => h i hi g (hie ▸ hg))) fun g hg => hg.bind fun o ho => ?_
      cases o with
      | none => exact absurd rfl ho
      | some o => exact .pure (.inl ⟨_, rfl, hx.2⟩)

/-! ### Coming to an end -/

/-- In every world the generator answers, and it stops or raises after finitely many texts. -/
inductive Finishes (E : Env W) : Gen → Prop
  | mk {g} : (∀ w, (lim E).G g w ≠ .fuel) → (∀ w v g' w', (lim E).G g w = .ok (some (v, g')) w' → Finishes E g') → Finishes E g

theorem Finishes.out {g : Gen} (h : Finishes E g) : Halts (After (Finishes E)) ((lim E).G g) := by
  cases h with
  | mk h1 h2 =>
    refine fun w => ⟨h1 w, fun o w' ho => ?_⟩
    cases o with
    | none => trivial
    | some x => exact h2 w x.1 x.2 w' ho

theorem Finishes.of_step {g : Gen} (h : Halts (After (Finishes E)) (stepG E (lim E) g)) : Finishes E g := by
  rw [← lim_G] at h
  exact ⟨fun w => (h w).1, fun w v g' w' h' => (h w).2 _ _ h'⟩

theorem Finishes.safe {g : Gen} (h : Finishes E g) : Responds E g :=
  ⟨Finishes E, h, fun _ h => h.out⟩

/-- An induction over the remaining texts. -/
theorem Finishes.ind {P : Gen → Prop} {g : Gen} (h : Finishes E g)
    (step : ∀ g, Finishes E g → Halts (After fun x => Finishes E x ∧ P x) ((lim E).G g) → P g) : P g := by
  induction h with
  | mk h1 h2 ih =>
    refine step _ ⟨h1, h2⟩ fun w => ⟨h1 w, fun o w' ho => ?_⟩
    cases o with
    | none => trivial
    | some x => exact ⟨h2 w x.1 x.2 w' ho, ih w x.1 x.2 w' ho⟩

theorem Finishes.done : Finishes E .done := .of_step (.pure trivial)

theorem Finishes.squash {g : Gen} (h : Finishes E g) : Finishes E (.squash g) :=
  h.ind (P := fun g => Finishes E (.squash g)) fun g _ ih => .of_step (ih.bind fun a ha => by
    cases a with
    | none => exact .pure trivial
    | some a => exact .pure ha.2)

/-- The generators of a collection answer. -/
def CollSafe (E : Env W) (coll : Coll) : Prop := ∀ x ∈ coll, Responds E x.2.1

/-- With any answering collection, the frame answers and comes to an end. -/
inductive FinishesS (E : Env W) : SFrame → Prop
  | mk {fr} : (∀ coll, CollSafe E coll → Halts (fun x => CollSafe E x.1) ((lim E).S coll fr)) →
      (∀ coll w coll' vs fr' w', CollSafe E coll → (lim E).S coll fr w = .ok (coll', some (vs, fr')) w' → FinishesS E fr') →
      FinishesS E fr

theorem FinishesS.out {fr : SFrame} (h : FinishesS E fr) {coll : Coll} (hc : CollSafe E coll) :
    Halts (fun x => CollSafe E x.1 ∧ After (FinishesS E) x.2) ((lim E).S coll fr) := by
  cases h with
  | mk h1 h2 =>
    refine fun w => ⟨(h1 coll hc w).1, fun o w' ho => ⟨(h1 coll hc w).2 o w' ho, ?_⟩⟩
    obtain ⟨coll', o⟩ := o
    cases o with
    | none => trivial
    | some x => exact h2 coll w coll' x.1 x.2 w' hc ho

theorem FinishesS.of_step {fr : SFrame}
    (h : ∀ coll, CollSafe E coll → Halts (fun x => CollSafe E x.1 ∧ After (FinishesS E) x.2) (stepS E (lim E) coll fr)) :
    FinishesS E fr := by
  simp only [← lim_S] at h
  exact ⟨fun coll hc => (h coll hc).weaken fun _ h => h.1,
    fun coll w coll' vs fr' w' hc h' => ((h coll hc w).2 _ _ h').2⟩

theorem FinishesS.ind {P : SFrame → Prop} {fr : SFrame} (h : FinishesS E fr)
    (step : ∀ fr, FinishesS E fr → (∀ coll, CollSafe E coll →
      Halts (fun x => CollSafe E x.1 ∧ After (fun f => FinishesS E f ∧ P f) x.2) ((lim E).S coll fr)) → P fr) : P fr := by
  induction h with
  | mk h1 h2 ih =>
    refine step _ ⟨h1, h2⟩ fun coll hc w => ⟨(h1 coll hc w).1, fun o w' ho => ⟨(h1 coll hc w).2 o w' ho, ?_⟩⟩
    obtain ⟨coll', o⟩ := o
    cases o with
    | none => trivial
    | some x => exact ⟨h2 coll w coll' x.1 x.2 w' hc ho, ih coll w coll' x.1 x.2 w' hc ho⟩

theorem getValue_safe {c : Cmd} {coll : Coll} (h : CollSafe E coll) :
    Halts (fun x => CollSafe E x.2) ((lim E).getValue c coll) := by
  induction coll with
  | nil => exact .raise
  | cons x coll ih =>
    obtain ⟨c', g, v⟩ := x
    have hr : CollSafe E coll := fun x hx => h x (by simp [hx])
    have hg : Responds E g := h (c', g, v) (by simp)
    have cons : ∀ (c : Cmd) {g : Gen} (v : Option Str) {coll : Coll}, Responds E g → CollSafe E coll →
        CollSafe E ((c, g, v) :: coll) := by
      intro c g v coll hg hc x hx
      rcases List.mem_cons.1 hx with rfl | hx
      · exact hg
      · exact hc x hx
    unfold Recs.getValue
    split
    · refine hg.out.bind fun o ho => ?_
      cases o with
      | none => exact .pure (cons _ _ .done hr)
      | some o => exact .pure (cons _ _ ho hr)
    · exact (ih hr).bind fun y hy => .pure (cons _ _ hg hy)

theorem FinishesS.done : FinishesS E .done := .of_step fun _ hc => .pure ⟨hc, trivial⟩

theorem FinishesS.nf {c : Cmd} {rest : SFrame} (h : FinishesS E rest) : FinishesS E (.nf c rest) :=
  h.ind (P := fun rest => FinishesS E (.nf c rest)) fun rest _ ih => .of_step fun coll hc => (ih coll hc).bind fun x hx => by
    obtain ⟨coll', o⟩ := x
    cases o with
    | none => exact .pure ⟨hx.1, trivial⟩
    | some o =>
      refine (getValue_safe hx.1).bind fun y hy => ?_
      obtain ⟨v, coll''⟩ := y
      cases v with
      | none => exact .pure ⟨hy, hx.2.2⟩
      | some v => exact .pure ⟨hy, hx.2.2⟩

theorem FinishesS.finIn {ctx : Ctx} {cs : List Cmd} {g : Gen} {v : Str} {cur : SFrame} (hg : FinishesS E (.fin ctx cs g))
    (h : FinishesS E cur) : FinishesS E (.finIn ctx cs g v cur) :=
  h.ind (P := fun cur => FinishesS E (.finIn ctx cs g v cur)) fun cur _ ih => .of_step fun coll hc => (ih coll hc).bind fun x hx => by
    obtain ⟨coll', o⟩ := x
    cases o with
    | none => exact hg.out hx.1
    | some o => exact .pure ⟨hx.1, hx.2.2⟩

theorem FinishesS.fin {ctx : Ctx} {cs : List Cmd} {g : Gen} (hs : FinishesS E (.start ctx cs)) (hg : Finishes E g) :
    FinishesS E (.fin ctx cs g) :=
  hg.ind (P := fun g => FinishesS E (.fin ctx cs g)) fun g _ ih => .of_step fun coll hc => ih.bind fun o ho => by
    cases o with
    | none => exact .pure ⟨hc, trivial⟩
    | some o => exact (FinishesS.finIn ho.2 hs).out hc

theorem FinishesS.start {ctx : Ctx} {cs : List Cmd} (h : ∀ c ∈ cs, (ctx.effective c).nonfinite = false →
    ∀ g, mkGen E.unknown ctx c = .ok g → Finishes E g) : FinishesS E (.start ctx cs) := by
  induction cs with
  | nil => exact .of_step fun coll hc => .pure ⟨hc, .done⟩
  | cons c cs ih =>
    have hs := ih fun c hc => h c (by simp [hc])
    refine .of_step fun coll hc => ?_
    unfold stepS
    dsimp only
    split
    · exact (FinishesS.nf hs).out hc
    · rename_i hf
      exact (Halts.lift (h c (by simp) (by simpa using hf))).bind fun g hg => (FinishesS.fin hs hg).out hc

theorem Finishes.combSeq {sep : Str} {coll : Coll} {fr : SFrame} (hc : CollSafe E coll) (h : FinishesS E fr) :
    Finishes E (.combSeq sep coll fr) := by
  revert coll
  refine h.ind (P := fun fr => ∀ {coll}, CollSafe E coll → Finishes E (.combSeq sep coll fr)) ?_
  intro fr _ ih coll hc
  refine .of_step ((ih coll hc).bind fun x hx => ?_)
  obtain ⟨coll', o⟩ := x
  cases o with
  | none => exact .pure trivial
  | some o => exact .pure (hx.2.2 hx.1)

/-- The frame answers and comes to an end. -/
inductive FinishesP (E : Env W) : PFrame → Prop
  | mk {fr} : (∀ w, (lim E).P fr w ≠ .fuel) → (∀ w v fr' w', (lim E).P fr w = .ok (some (v, fr')) w' → FinishesP E fr') →
      FinishesP E fr

theorem FinishesP.out {fr : PFrame} (h : FinishesP E fr) : Halts (After (FinishesP E)) ((lim E).P fr) := by
  cases h with
  | mk h1 h2 =>
    refine fun w => ⟨h1 w, fun o w' ho => ?_⟩
    cases o with
    | none => trivial
    | some x => exact h2 w x.1 x.2 w' ho

theorem FinishesP.of_step {fr : PFrame} (h : Halts (After (FinishesP E)) (stepP E (lim E) fr)) : FinishesP E fr := by
  rw [← lim_P] at h
  exact ⟨fun w => (h w).1, fun w v g' w' h' => (h w).2 _ _ h'⟩

theorem FinishesP.ind {P : PFrame → Prop} {fr : PFrame} (h : FinishesP E fr)
    (step : ∀ fr, FinishesP E fr → Halts (After fun x => FinishesP E x ∧ P x) ((lim E).P fr) → P fr) : P fr := by
  induction h with
  | mk h1 h2 ih =>
    refine step _ ⟨h1, h2⟩ fun w => ⟨h1 w, fun o w' ho => ?_⟩
    cases o with
    | none => trivial
    | some x => exact ⟨h2 w x.1 x.2 w' ho, ih w x.1 x.2 w' ho⟩

theorem FinishesP.done : FinishesP E .done := .of_step (.pure trivial)

theorem FinishesP.nf {g : Gen} {rest : PFrame} (hg : Responds E g) (h : FinishesP E rest) : FinishesP E (.nf g rest) := by
  revert g
  refine h.ind (P := fun rest => ∀ {g}, Responds E g → FinishesP E (.nf g rest)) ?_
  intro rest _ ih g hg
  refine .of_step (ih.bind fun o ho => ?_)
  cases o with
  | none => exact .pure trivial
  | some o => exact hg.next!.bind fun y hy => .pure (ho.2 hy)

theorem FinishesP.finIn {ctx : Ctx} {cs : List Cmd} {g : Gen} {v : Str} {cur : PFrame} (hg : FinishesP E (.fin ctx cs g))
    (h : FinishesP E cur) : FinishesP E (.finIn ctx cs g v cur) :=
  h.ind (P := fun cur => FinishesP E (.finIn ctx cs g v cur)) fun cur _ ih => .of_step (ih.bind fun o ho => by
    cases o with
    | none => exact hg.out
    | some o => exact .pure ho.2)

theorem FinishesP.fin {ctx : Ctx} {cs : List Cmd} {g : Gen} (hs : FinishesP E (.start ctx cs)) (hg : Finishes E g) :
    FinishesP E (.fin ctx cs g) :=
  hg.ind (P := fun g => FinishesP E (.fin ctx cs g)) fun g _ ih => .of_step (ih.bind fun o ho => by
    cases o with
    | none => exact .pure trivial
    | some o => exact (FinishesP.finIn ho.2 hs).out)

theorem FinishesP.start {ctx : Ctx} {cs : List Cmd} (h : ∀ c ∈ cs, ∀ g, mkGen E.unknown ctx c = .ok g →
    Responds E g ∧ ((ctx.effective c).nonfinite = false → Finishes E g)) : FinishesP E (.start ctx cs) := by
  induction cs with
  | nil => exact .of_step (.pure .done)
  | cons c cs ih =>
    have hs := ih fun c hc => h c (by simp [hc])
    refine .of_step ((Halts.lift (h c (by simp))).bind fun g hg => ?_)
    split
    · exact (FinishesP.nf hg.1 hs).out
    · rename_i hf
      exact (FinishesP.fin hs (hg.2 (by simpa using hf))).out

theorem Finishes.combVarIn {ctx : Ctx} {sep : Str} {pend : List (Nat × List Cmd)} {b : Nat} {fr : PFrame}
    (hp : ∀ seen, Finishes E (.combVar ctx sep seen pend)) (h : FinishesP E fr) (seen : List (List Str)) :
    Finishes E (.combVarIn ctx sep seen pend b fr) := by
  revert seen
  refine h.ind (P := fun fr => ∀ seen, Finishes E (.combVarIn ctx sep seen pend b fr)) ?_
  intro fr _ ih seen
  refine .of_step (ih.bind fun o ho => ?_)
  cases o with
  | none => exact (hp seen).out
  | some o =>
    dsimp only
    split
    · exact .pure (ho.2 _)
    · exact (ho.2 seen).out

theorem Finishes.combVar {ctx : Ctx} {sep : Str} {pend : List (Nat × List Cmd)} (h : ∀ p ∈ pend, FinishesP E (.start ctx p.2))
    (seen : List (List Str)) : Finishes E (.combVar ctx sep seen pend) := by
  induction pend generalizing seen with
  | nil => exact .of_step (.pure trivial)
  | cons p pend ih =>
    exact .of_step (Finishes.combVarIn (ih fun p hp => h p (by simp [hp])) (h p (by simp)) seen).out

theorem Finishes.combWild {ctx : Ctx} {vals : List Str} {cur : Gen}
    (h : ∀ v ∈ vals, ∀ g, sampleGen E ctx (.inl v) = .ok g → Finishes E g) (hc : Finishes E cur) :
    Finishes E (.combWild ctx vals cur) := by
  induction vals generalizing cur with
  | nil =>
    exact hc.ind (P := fun g => Finishes E (.combWild ctx [] g)) fun g _ ih => .of_step (ih.bind fun o ho => by
      cases o with
      | none => exact .pure trivial
      | some o => exact .pure ho.2)
  | cons v vals ihv =>
    exact hc.ind (P := fun g => Finishes E (.combWild ctx (v :: vals) g)) fun g _ ih => .of_step (ih.bind fun o ho => by
      cases o with
      | none =>
        exact (Halts.lift (h v (by simp))).bind fun g hg => (ihv (fun v hv => h v (by simp [hv])) hg).out
      | some o => exact .pure ho.2)

theorem Finishes.combWrapIn {ctx : Ctx} {inner : Cmd} {wg : Gen} {w : Str} {ig : Gen} (hw : Finishes E (.combWrap ctx inner wg))
    (hi : Finishes E ig) : Finishes E (.combWrapIn ctx inner wg w ig) :=
  hi.ind (P := fun g => Finishes E (.combWrapIn ctx inner wg w g)) fun g _ ih => .of_step (ih.bind fun o ho => by
    cases o with
    | none => exact hw.out
    | some o => exact .pure ho.2)

theorem Finishes.combWrap {ctx : Ctx} {inner : Cmd} {wg : Gen}
    (h : ∀ g, sampleGen E ctx (.inr inner) = .ok g → Finishes E g) (hw : Finishes E wg) : Finishes E (.combWrap ctx inner wg) :=
  hw.ind (P := fun g => Finishes E (.combWrap ctx inner g)) fun g _ ih => .of_step (ih.bind fun o ho => by
    cases o with
    | none => exact .pure trivial
    | some o => exact (Halts.lift h).bind fun ig hig => (Finishes.combWrapIn ho.2 hig).out)

end Verif
