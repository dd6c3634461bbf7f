import Verif.Proofs.Live
import Verif.Proofs.Comb
import Verif.Proofs.Cycle
import Verif.Spec.Lists
/-! Combinatorial sampling lists the specified texts, with the number of texts independent of the
random source. -/

namespace Verif
open Spec Props
variable {W : Type} {E : Env W}

/-! ### Generators whose texts satisfy the given predicates in turn, in every world -/

/-- In every world, `g` yields one text per predicate, and stops. -/
def PY (E : Env W) : List (Str → Prop) → Gen → Prop
  | [], g => ∀ w, ∃ w', NextG E g w (.ok none w')
  | p :: ps, g => ∀ w, ∃ v g' w', NextG E g w (.ok (some (v, g')) w') ∧ p v ∧ PY E ps g'

/-- The same for `get_sequence`, with an invariant of its collection. -/
def PYS (E : Env W) (I : Coll → Prop) : List (List Str → Prop) → SFrame → Prop
  | [], fr => ∀ coll, I coll → ∀ w, ∃ coll' w', NextS E coll fr w (.ok (coll', none) w') ∧ I coll'
  | p :: ps, fr => ∀ coll, I coll → ∀ w, ∃ coll' v fr' w',
      NextS E coll fr w (.ok (coll', some (v, fr')) w') ∧ I coll' ∧ p v ∧ PYS E I ps fr'

/-- For `_combo_to_prompt`, exact texts. -/
def YP (E : Env W) : List (List Str) → PFrame → Prop
  | [], fr => ∀ w, ∃ w', NextP E fr w (.ok none w')
  | t :: ts, fr => ∀ w, ∃ fr' w', NextP E fr w (.ok (some (t, fr')) w') ∧ YP E ts fr'

/-- Exactly these texts. -/
def Yx (E : Env W) (ts : List Str) (g : Gen) : Prop := PY E (ts.map fun o s => s = o) g

theorem PY.of_next {ps : List (Str → Prop)} {g g' : Gen}
    (h : PY E ps g') (hs : ∀ w o, NextG E g' w o → NextG E g w o) : PY E ps g := by
  cases ps with
  | nil => exact fun w => let ⟨w', h1⟩ := h w; ⟨w', hs _ _ h1⟩
  | cons p ps => exact fun w => let ⟨v, g1, w', h1, h2⟩ := h w; ⟨v, g1, w', hs _ _ h1, h2⟩

/-- If `g` first silently turns into some `g'` (depending on the world). -/
theorem PY.of_step {ps : List (Str → Prop)} {g : Gen}
    (h : ∀ w, ∃ g' w', PY E ps g' ∧ ∀ o, NextG E g' w' o → NextG E g w o) : PY E ps g := by
  cases ps with
  | nil =>
    intro w
    obtain ⟨g', w', h1, h2⟩ := h w
    obtain ⟨w2, h3⟩ := h1 w'
    exact ⟨w2, h2 _ h3⟩
  | cons p ps =>
    intro w
    obtain ⟨g', w', h1, h2⟩ := h w
    obtain ⟨v, g1, w2, h3, h4⟩ := h1 w'
    exact ⟨v, g1, w2, h2 _ h3, h4⟩

theorem PYS.of_step {I : Coll → Prop} {ps : List (List Str → Prop)} {fr : SFrame}
    (h : ∀ coll, I coll → ∀ w, ∃ coll' fr' w', I coll' ∧ PYS E I ps fr' ∧
      ∀ o, NextS E coll' fr' w' o → NextS E coll fr w o) : PYS E I ps fr := by
  cases ps with
  | nil =>
    intro coll hc w
    obtain ⟨coll', fr', w', h0, h1, h2⟩ := h coll hc w
    obtain ⟨c2, w2, h3, h4⟩ := h1 coll' h0 w'
    exact ⟨c2, w2, h2 _ h3, h4⟩
  | cons p ps =>
    intro coll hc w
    obtain ⟨coll', fr', w', h0, h1, h2⟩ := h coll hc w
    obtain ⟨c2, v, g1, w2, h3, h4⟩ := h1 coll' h0 w'
    exact ⟨c2, v, g1, w2, h2 _ h3, h4⟩

theorem YP.of_step {ps : List (List Str)} {g : PFrame}
    (h : ∀ w, ∃ g' w', YP E ps g' ∧ ∀ o, NextP E g' w' o → NextP E g w o) : YP E ps g := by
  cases ps with
  | nil =>
    intro w
    obtain ⟨g', w', h1, h2⟩ := h w
    obtain ⟨w2, h3⟩ := h1 w'
    exact ⟨w2, h2 _ h3⟩
  | cons p ps =>
    intro w
    obtain ⟨g', w', h1, h2⟩ := h w
    obtain ⟨g1, w2, h3, h4⟩ := h1 w'
    exact ⟨g1, w2, h2 _ h3, h4⟩

theorem PY.mono {ps qs : List (Str → Prop)} {g : Gen} (h : PY E ps g)
    (hpq : List.Forall₂ (fun p q => ∀ s, p s → q s) ps qs) : PY E qs g := by
  induction hpq generalizing g with
  | nil => exact h
  | cons h1 _ ih =>
    intro w
    obtain ⟨v, g', w', h2, h3, h4⟩ := h w
    exact ⟨v, g', w', h2, h1 _ h3, ih h4⟩

theorem Yx.done : Yx E [] .done := fun w => ⟨w, NextG.of_step (Ev.of fun _ => rfl)⟩

theorem PY.map {ps : List (Str → Prop)} {g : Gen} {F : Gen → Gen} {φ : Str → Str}
    (hF : ∀ g w w', NextG E g w (.ok none w') → NextG E (F g) w (.ok none w'))
    (hF' : ∀ g g' v w w', NextG E g w (.ok (some (v, g')) w') →
      NextG E (F g) w (.ok (some (φ v, F g')) w'))
    (h : PY E ps g) : PY E (ps.map fun p s => ∃ x, p x ∧ s = φ x) (F g) := by
  induction ps generalizing g with
  | nil => exact fun w => let ⟨w', h1⟩ := h w; ⟨w', hF _ _ _ h1⟩
  | cons p ps ih =>
    intro w
    obtain ⟨v, g', w', h2, h3, h4⟩ := h w
    exact ⟨φ v, F g', w', hF' _ _ _ _ _ h2, ⟨v, h3, rfl⟩, ih h4⟩

theorem PY.squash {ps : List (Str → Prop)} {g : Gen} (h : PY E ps g) :
    PY E (ps.map fun p s => ∃ x, p x ∧ s = squashWhitespace x) (.squash g) :=
  PY.map (F := Gen.squash)
    (fun _ _ _ h => NextG.of_step (Ev.bind (f := fun n => _) h (Ev.of fun _ => rfl)))
    (fun _ _ _ _ _ h => NextG.of_step (Ev.bind (f := fun n => _) h (Ev.of fun _ => rfl))) h

theorem Yx.squash {ts : List Str} {g : Gen} (h : Yx E ts g) :
    Yx E (ts.map squashWhitespace) (.squash g) := by
  have := PY.squash h
  unfold Yx
  rw [List.map_map] at this ⊢
  convert this using 2
  funext s
  simp

/-- The `squash` step of `sample_prompts`. -/
theorem PY.squashIf {ps : List (Str → Prop)} {g : Gen} (h : PY E ps g) :
    PY E (ps.map fun p s => ∃ x, p x ∧ s = squashIf E.ignoreWs x)
      (if E.ignoreWs then .squash g else g) := by
  cases hw : E.ignoreWs
  · have : (ps.map fun p s => ∃ x, p x ∧ s = Spec.squashIf false x) = ps := by
      rw [List.map_congr_left (g := id), List.map_id]
      intro p _
      funext s
      simp [Spec.squashIf]
    rw [this]
    exact h
  · exact h.squash

theorem Yx.squashIf {ts : List Str} {g : Gen} (h : Yx E ts g) :
    Yx E (ts.map (squashIf E.ignoreWs)) (if E.ignoreWs then .squash g else g) := by
  have := PY.squashIf h
  unfold Yx
  rw [List.map_map] at this ⊢
  convert this using 2
  funext s
  simp

/-! ### Products -/

def consP (p : Str → Prop) (q : List Str → Prop) : List Str → Prop :=
  fun t => ∃ x t', t = x :: t' ∧ p x ∧ q t'

/-- One predicate per combination. -/
def prodP : List (List (Str → Prop)) → List (List Str → Prop)
  | [] => [fun t => t = []]
  | ps :: pss => ps.flatMap fun p => (prodP pss).map (consP p)

theorem prodP_eq (pss : List (List (Str → Prop))) :
    prodP pss = (product pss).map fun t strs => List.Forall₂ (fun p x => p x) t strs := by
  induction pss with
  | nil =>
    simp only [prodP, product, List.map_cons, List.map_nil]
    congr 1
    funext t
    cases t <;> simp
  | cons ps pss ih =>
    simp only [prodP, product, ih, List.map_flatMap, List.map_map, Function.comp_def]
    congr 1
    funext p
    congr 1
    funext t s
    apply propext
    constructor
    · rintro ⟨x, t', rfl, h1, h2⟩; exact .cons h1 h2
    · rintro (_ | ⟨h1, h2⟩); exact ⟨_, _, rfl, h1, h2⟩

theorem prodP_exact (xss : List (List Str)) :
    prodP (xss.map fun xs => xs.map fun o s => s = o) = (product xss).map fun t strs => strs = t := by
  induction xss with
  | nil => rfl
  | cons xs xss ih =>
    simp only [List.map_cons, prodP, product, ih, List.map_flatMap, List.map_map, Function.comp_def,
      List.flatMap_map]
    congr 1
    funext x
    congr 1
    funext t s
    apply propext
    constructor
    · rintro ⟨_, _, rfl, rfl, rfl⟩; rfl
    · rintro rfl; exact ⟨_, _, rfl, rfl, rfl⟩

theorem PYS.finIn {I : Coll → Prop} {ctx : Ctx} {cs : List Cmd} {g : Gen} {v : Str} {p : Str → Prop}
    {ps qs : List (List Str → Prop)} {cur : SFrame} (hv : p v) (hc : PYS E I ps cur)
    (hr : PYS E I qs (.fin ctx cs g)) :
    PYS E I (ps.map (consP p) ++ qs) (.finIn ctx cs g v cur) := by
  induction ps generalizing cur with
  | nil =>
    refine PYS.of_step fun coll hI w => ?_
    obtain ⟨coll', w', h1, h2⟩ := hc coll hI w
    exact ⟨coll', _, w', h2, hr, fun o ho => NextS.of_step (Ev.bind (f := fun n => _) h1 ho)⟩
  | cons q ps ih =>
    intro coll hI w
    obtain ⟨coll', t, fr', w', h1, h2, h3, h4⟩ := hc coll hI w
    exact ⟨coll', v :: t, _, w', NextS.of_step (Ev.bind (f := fun n => _) h1 (Ev.of fun _ => rfl)),
      h2, ⟨_, _, rfl, hv, h3⟩, ih h4⟩

theorem PYS.fin {I : Coll → Prop} {ctx : Ctx} {cs : List Cmd} {g : Gen}
    {ps : List (Str → Prop)} {qs : List (List Str → Prop)} (hg : PY E ps g)
    (hc : PYS E I qs (.start ctx cs)) :
    PYS E I (ps.flatMap fun p => qs.map (consP p)) (.fin ctx cs g) := by
  induction ps generalizing g with
  | nil =>
    intro coll hI w
    obtain ⟨w', h1⟩ := hg w
    exact ⟨coll, w', NextS.of_step (Ev.bind (f := fun n => _) h1 (Ev.of fun _ => rfl)), hI⟩
  | cons p ps ih =>
    refine PYS.of_step fun coll hI w => ?_
    obtain ⟨v, g', w', h1, h2, h3⟩ := hg w
    exact ⟨coll, _, w', hI, PYS.finIn h2 hc (ih h3),
      fun o ho => NextS.of_step (Ev.bind (f := fun n => _) h1 ho)⟩

/-- A value can be taken from the collection for command `c`. -/
def Gives (E : Env W) (I : Coll → Prop) (c : Cmd) (Q : Str → Prop) : Prop :=
  ∀ coll, I coll → ∀ w, ∃ v coll' w',
    (Ev fun n => (recs E n).getValue c coll w = .ok (some v, coll') w') ∧ I coll' ∧ Q v

theorem PYS.nf {I : Coll → Prop} {c : Cmd} {Q : Str → Prop} {qs : List (List Str → Prop)}
    {rest : SFrame} (hc : Gives E I c Q) (hr : PYS E I qs rest) :
    PYS E I (qs.map (consP Q)) (.nf c rest) := by
  induction qs generalizing rest with
  | nil =>
    intro coll hI w
    obtain ⟨coll', w', h1, h2⟩ := hr coll hI w
    exact ⟨coll', w', NextS.of_step (Ev.bind (f := fun n => _) h1 (Ev.of fun _ => rfl)), h2⟩
  | cons q qs ih =>
    intro coll hI w
    obtain ⟨coll', t, fr', w', h1, h2, h3, h4⟩ := hr coll hI w
    obtain ⟨v, coll2, w2, h5, h6, h7⟩ := hc coll' h2 w'
    exact ⟨coll2, v :: t, _, w2, NextS.of_step (Ev.bind (f := fun n => _) h1
      (Ev.bind (f := fun n => _) h5 (Ev.of fun _ => rfl))), h6, ⟨_, _, rfl, h7, h3⟩, ih h4⟩

/-- What is needed of each token. -/
def TokOK (E : Env W) (I : Coll → Prop) (ctx : Ctx) (c : Cmd) (ps : List (Str → Prop)) : Prop :=
  ((ctx.effective c).nonfinite = true ∧ ∃ Q, ps = [Q] ∧ Gives E I c Q) ∨
  ((ctx.effective c).nonfinite = false ∧ ∃ g, mkGen E.unknown ctx c = .ok g ∧ PY E ps g)

theorem PYS.start {I : Coll → Prop} {ctx : Ctx} {cs : List Cmd} {pss : List (List (Str → Prop))}
    (h : List.Forall₂ (TokOK E I ctx) cs pss) : PYS E I (prodP pss) (.start ctx cs) := by
  induction h with
  | nil =>
    intro coll hI w
    exact ⟨coll, [], .done, w, NextS.of_step (Ev.of fun _ => rfl), hI, rfl, fun coll hI w =>
      ⟨coll, w, NextS.of_step (Ev.of fun _ => rfl), hI⟩⟩
  | @cons c ps cs pss h1 _ ih =>
    rcases h1 with ⟨h1, Q, rfl, h2⟩ | ⟨h1, g, hg, h2⟩
    · simp only [prodP, List.flatMap_cons, List.flatMap_nil, List.append_nil]
      refine PYS.of_step fun coll hI w => ⟨coll, _, w, hI, PYS.nf h2 ih, fun o ho => NextS.of_step ?_⟩
      refine ho.mp fun n hn => ?_
      simp only [stepS]
      rw [if_pos h1]
      exact hn
    · refine PYS.of_step fun coll hI w => ⟨coll, _, w, hI, PYS.fin h2 ih, fun o ho => NextS.of_step ?_⟩
      refine ho.mp fun n hn => ?_
      simp only [stepS]
      rw [if_neg (by rw [h1]; simp), M.bind_of_ok (a := g) (w' := w) (by rw [hg]; rfl)]
      exact hn

theorem PY.combSeq {I : Coll → Prop} {sep : Str} {coll : Coll} {fr : SFrame}
    {ps : List (List Str → Prop)} (hI : I coll) (h : PYS E I ps fr) :
    PY E (ps.map fun p s => ∃ t, p t ∧ s = joined sep t) (.combSeq sep coll fr) := by
  induction ps generalizing coll fr with
  | nil =>
    intro w
    obtain ⟨coll', w', h1, -⟩ := h coll hI w
    exact ⟨w', NextG.of_step (Ev.bind (f := fun n => _) h1 (Ev.of fun _ => rfl))⟩
  | cons p ps ih =>
    intro w
    obtain ⟨coll', t, fr', w', h1, h2, h3, h4⟩ := h coll hI w
    exact ⟨_, _, w', NextG.of_step (Ev.bind (f := fun n => _) h1 (Ev.of fun _ => rfl)), ⟨t, h3, rfl⟩,
      ih h2 h4⟩

/-! ### The collection -/

/-- The generator never runs dry and its texts satisfy `Q`. -/
def LiveIn (E : Env W) (Q : Str → Prop) (g : Gen) : Prop := Live E g ∧ ∃ D D', GOk E g Q D D'

theorem LiveIn.out {Q : Str → Prop} {g : Gen} (h : LiveIn E Q g) (w : W) :
    ∃ v g' w', NextG E g w (.ok (some (v, g')) w') ∧ Q v ∧ LiveIn E Q g' := by
  obtain ⟨h1, D, D', h2⟩ := h
  obtain ⟨v, g', w', ⟨N, hN⟩, h4⟩ := h1.out w
  have := (recs_good E N).1 h2 (hN N (Nat.le_refl _))
  exact ⟨v, g', w', ⟨N, hN⟩, this.1, h4, _, _, this.2⟩

/-- The entries of the non-finite commands have a value and never run dry. -/
def CollInv (E : Env W) (Q : Cmd → Str → Prop) (cs : List Cmd) (coll : Coll) : Prop :=
  coll.map (·.1) = cs ∧ ∀ e ∈ coll, e.1.ownNonfinite → LiveIn E (Q e.1) e.2.1 ∧
    ∃ v, e.2.2 = some v ∧ Q e.1 v

theorem gives_coll {Q : Cmd → Str → Prop} {cs : List Cmd} {c : Cmd} (hc : c ∈ cs)
    (hn : c.ownNonfinite) : Gives E (CollInv E Q cs) c (Q c) := by
  intro coll
  induction coll generalizing cs with
  | nil =>
    rintro ⟨h, -⟩ w
    simp only [List.map_nil] at h
    subst h; simp at hc
  | cons e coll ih =>
    rintro ⟨h, h'⟩ w
    simp only [List.map_cons] at h
    subst h
    obtain ⟨c', g, v⟩ := e
    by_cases he : c' = c
    · subst he
      obtain ⟨hl, v0, hv0, hq⟩ := h' (c', g, v) (by simp) hn
      dsimp only at hl hv0 hq
      subst hv0
      obtain ⟨v1, g', w', h1, h2, h3⟩ := hl.out w
      refine ⟨v0, (c', g', some v1) :: coll, w', ?_, ⟨rfl, ?_⟩, hq⟩
      · simp only [Recs.getValue, if_true]
        exact Ev.bind (f := fun n => _) h1 (Ev.of fun _ => rfl)
      · intro e he _
        rcases List.mem_cons.1 he with rfl | he
        · exact ⟨h3, v1, rfl, h2⟩
        · exact h' e (by simp [he]) ‹_›
    · have hc' : c ∈ coll.map (·.1) := by
        rcases List.mem_cons.1 hc with rfl | hc
        · exact absurd rfl he
        · exact hc
      obtain ⟨v1, coll', w', h1, ⟨h2, h3⟩, h4⟩ := ih hc' ⟨rfl, fun e he => h' e (by simp [he])⟩ w
      refine ⟨v1, (c', g, v) :: coll', w', ?_, ⟨by simp [h2], ?_⟩, h4⟩
      · simp only [Recs.getValue, if_neg he]
        exact Ev.bind (f := fun n => _) h1 (Ev.of fun _ => rfl)
      · intro e he hn'
        rcases List.mem_cons.1 he with rfl | he
        · exact h' _ (by simp) hn'
        · exact h3 e he hn'

theorem mkColl_inv {Q : Cmd → Str → Prop} {ctx : Ctx} {cs : List Cmd}
    (h : ∀ c ∈ cs, ∃ g, mkGen E.unknown ctx c = .ok g ∧ (c.ownNonfinite → LiveIn E (Q c) g) ∧
      (¬ c.ownNonfinite → ∃ p ps, PY E (p :: ps) g)) (w : W) :
    ∃ coll w', (Ev fun n => (recs E n).mkColl E ctx cs w = .ok coll w') ∧ CollInv E Q cs coll := by
  have key : ∃ gs, mkGens E.unknown ctx cs = .ok gs ∧ ∀ w, ∃ coll w',
      (Ev fun n => (recs E n).firstValues (cs.zip gs) w = .ok coll w') ∧ CollInv E Q cs coll := by
    clear w
    induction cs with
    | nil => exact ⟨[], rfl, fun w => ⟨[], w, Ev.of fun _ => rfl, rfl, by simp⟩⟩
    | cons c cs ih =>
      obtain ⟨gs, hgs, ih⟩ := ih fun c hc => h c (by simp [hc])
      obtain ⟨g, hg, h1, h2⟩ := h c (by simp)
      refine ⟨g :: gs, by simp [mkGens, hg, hgs], fun w => ?_⟩
      have : ∃ v g' w1, NextG E g w (.ok (some (v, g')) w1) ∧
          (c.ownNonfinite → LiveIn E (Q c) g' ∧ Q c v) := by
        by_cases hn : c.ownNonfinite
        · obtain ⟨v, g', w1, h3, h4, h5⟩ := (h1 hn).out w
          exact ⟨v, g', w1, h3, fun _ => ⟨h5, h4⟩⟩
        · obtain ⟨p, ps, h3⟩ := h2 hn
          obtain ⟨v, g', w1, h4, -⟩ := h3 w
          exact ⟨v, g', w1, h4, fun h => absurd h hn⟩
      obtain ⟨v, g', w1, h3, h4⟩ := this
      obtain ⟨coll, w2, h5, h6, h7⟩ := ih w1
      refine ⟨(c, g', some v) :: coll, w2, ?_, by simp [h6], ?_⟩
      · simp only [List.zip_cons_cons, Recs.firstValues]
        exact Ev.bind (f := fun n => _) (next!_steps h3)
          (Ev.bind (f := fun n => _) h5 (Ev.of fun _ => rfl))
      · intro e he hn
        rcases List.mem_cons.1 he with rfl | he
        · exact ⟨(h4 hn).1, v, rfl, (h4 hn).2⟩
        · exact h7 e he hn
  obtain ⟨gs, hgs, key⟩ := key
  obtain ⟨coll, w', h1, h2⟩ := key w
  refine ⟨coll, w', ?_, h2⟩
  unfold Recs.mkColl
  exact Ev.bind (a := gs) (w1 := w) (f := fun n => _) (Ev.of fun _ => by rw [hgs]; rfl) h1

/-! ### Variants, wildcards, wraps -/

theorem YP.finIn {ctx : Ctx} {cs : List Cmd} {g : Gen} {v : Str} {cur : PFrame}
    {yss zss : List (List Str)} (hc : YP E yss cur) (hr : YP E zss (.fin ctx cs g)) :
    YP E (yss.map (v :: ·) ++ zss) (.finIn ctx cs g v cur) := by
  induction yss generalizing cur with
  | nil =>
    refine YP.of_step fun w => ?_
    obtain ⟨w', h1⟩ := hc w
    exact ⟨_, w', hr, fun o ho => NextP.of_step (Ev.bind (f := fun n => _) h1 ho)⟩
  | cons t yss ih =>
    intro w
    obtain ⟨fr', w', h1, h2⟩ := hc w
    exact ⟨_, w', NextP.of_step (Ev.bind (f := fun n => _) h1 (Ev.of fun _ => rfl)), ih h2⟩

theorem YP.fin {ctx : Ctx} {cs : List Cmd} {g : Gen} {xs : List Str}
    {yss : List (List Str)} (hg : Yx E xs g) (hc : YP E yss (.start ctx cs)) :
    YP E (xs.flatMap fun x => yss.map (x :: ·)) (.fin ctx cs g) := by
  induction xs generalizing g with
  | nil =>
    intro w
    obtain ⟨w', h1⟩ := hg w
    exact ⟨w', NextP.of_step (Ev.bind (f := fun n => _) h1 (Ev.of fun _ => rfl))⟩
  | cons x xs ih =>
    refine YP.of_step fun w => ?_
    obtain ⟨v, g', w', h1, h2, h3⟩ := hg w
    replace h2 : v = x := h2
    subst h2
    exact ⟨_, w', YP.finIn hc (ih h3), fun o ho => NextP.of_step (Ev.bind (f := fun n => _) h1 ho)⟩

theorem YP.start {ctx : Ctx} {cs : List Cmd} {f : Cmd → List Str}
    (h : ∀ c ∈ cs, (ctx.effective c).nonfinite = false ∧ ∃ g, mkGen E.unknown ctx c = .ok g ∧
      Yx E (f c) g) : YP E (product (cs.map f)) (.start ctx cs) := by
  induction cs with
  | nil =>
    exact fun w => ⟨.done, w, NextP.of_step (Ev.of fun _ => rfl), fun w =>
      ⟨w, NextP.of_step (Ev.of fun _ => rfl)⟩⟩
  | cons c cs ih =>
    have ih := ih fun c hc => h c (by simp [hc])
    obtain ⟨hn, g, hg, hy⟩ := h c (by simp)
    refine YP.of_step fun w => ⟨_, w, YP.fin hy ih, fun o ho => NextP.of_step ?_⟩
    refine ho.mp fun n hn' => ?_
    simp only [stepP]
    rw [M.bind_of_ok (a := g) (w' := w) (by rw [hg]; rfl), if_neg (by rw [hn]; simp)]
    exact hn'

theorem Yx.combVarIn {ctx : Ctx} {sep : Str} {pend : List (Nat × List Cmd)} {b : Nat} {fr : PFrame}
    {tss R : List (List Str)} (hP : YP E tss fr) (hlen : ∀ t ∈ tss, t.length = b)
    (hrest : ∀ seen, Yx E ((firsts seen R).map (joined sep)) (.combVar ctx sep seen pend)) :
    ∀ seen, Yx E ((firsts seen (tss ++ R)).map (joined sep)) (.combVarIn ctx sep seen pend b fr) := by
  induction tss generalizing fr with
  | nil =>
    intro seen
    refine PY.of_step fun w => ?_
    obtain ⟨w', h1⟩ := hP w
    exact ⟨_, w', hrest seen, fun o ho => NextG.of_step (Ev.bind (f := fun n => _) h1 ho)⟩
  | cons t tss ih =>
    intro seen
    have ih := fun fr' h => ih (fr := fr') h (fun t ht => hlen t (by simp [ht]))
    have hb : t.length = b := hlen t (by simp)
    rw [List.cons_append, firsts]
    have hiff : ((dedupe (fun s : Str => s) t).length = b ∧ ¬ seen.contains (dedupe (fun s : Str => s) t)) ↔
        (t.Nodup ∧ ¬ seen.contains t) := by
      rw [← hb, dedupe_length_iff]
      constructor
      · rintro ⟨h1, h2⟩; rw [dedupe_of_nodup h1] at h2; exact ⟨h1, h2⟩
      · rintro ⟨h1, h2⟩; rw [dedupe_of_nodup h1]; exact ⟨h1, h2⟩
    by_cases hc : t.Nodup ∧ ¬ seen.contains t
    · rw [if_pos hc]
      intro w
      obtain ⟨fr', w', h1, h2⟩ := hP w
      refine ⟨_, _, w', NextG.of_step (Ev.bind (f := fun n => _) h1 (Ev.of fun n => ?_)), rfl,
        ih fr' h2 (t :: seen)⟩
      dsimp only
      rw [if_pos (hiff.2 hc), dedupe_of_nodup hc.1]
      rfl
    · rw [if_neg hc]
      refine PY.of_step fun w => ?_
      obtain ⟨fr', w', h1, h2⟩ := hP w
      refine ⟨_, w', ih fr' h2 seen, fun o ho => NextG.of_step (Ev.bind (f := fun n => _) h1 ?_)⟩
      refine ho.mp fun n hn => ?_
      dsimp only
      rw [if_neg (fun h => hc (hiff.1 h))]
      exact hn

theorem Yx.combVar {ctx : Ctx} {sep : Str} {tup : List Cmd → List (List Str)}
    {pend : List (Nat × List Cmd)}
    (h : ∀ p ∈ pend, YP E (tup p.2) (.start ctx p.2) ∧ ∀ t ∈ tup p.2, t.length = p.1) :
    ∀ seen, Yx E ((firsts seen (pend.flatMap fun p => tup p.2)).map (joined sep))
      (.combVar ctx sep seen pend) := by
  induction pend with
  | nil => intro seen w; exact ⟨w, NextG.of_step (Ev.of fun _ => rfl)⟩
  | cons p pend ih =>
    intro seen
    obtain ⟨b, combo⟩ := p
    obtain ⟨h1, h2⟩ := h (b, combo) (by simp)
    rw [List.flatMap_cons]
    have := Yx.combVarIn (ctx := ctx) (sep := sep) (pend := pend) h1 h2
      (ih (fun p hp => h p (by simp [hp]))) seen
    exact PY.of_next this fun w o ho => NextG.of_step ho

theorem PY.append_of {ps qs : List (Str → Prop)} {F : Gen → Gen} {g : Gen}
    (hF : ∀ g w w', NextG E g w (.ok none w') → ∃ g2 w2, PY E qs g2 ∧
      ∀ o, NextG E g2 w2 o → NextG E (F g) w o)
    (hF' : ∀ g g' v w w', NextG E g w (.ok (some (v, g')) w') →
      NextG E (F g) w (.ok (some (v, F g')) w'))
    (h : PY E ps g) : PY E (ps ++ qs) (F g) := by
  induction ps generalizing g with
  | nil =>
    refine PY.of_step fun w => ?_
    obtain ⟨w', h1⟩ := h w
    exact hF g w w' h1
  | cons p ps ih =>
    intro w
    obtain ⟨v, g', w', h2, h3, h4⟩ := h w
    exact ⟨v, F g', w', hF' _ _ _ _ _ h2, h3, ih h4⟩

theorem Yx.combWild {ctx : Ctx} {vals : List Str} {f : Str → List Str}
    (h : ∀ x ∈ vals, ∃ g, sampleGen E ctx (.inl x) = .ok g ∧ Yx E (f x) g) :
    ∀ {cur : Gen} {ts : List Str}, Yx E ts cur → Yx E (ts ++ vals.flatMap f) (.combWild ctx vals cur) := by
  induction vals with
  | nil =>
    intro cur ts hc
    unfold Yx
    rw [List.map_append]
    refine PY.append_of (F := Gen.combWild ctx []) ?_ ?_ hc
    · intro g w w' h1
      exact ⟨.done, w', fun w => ⟨w, NextG.of_step (Ev.of fun _ => rfl)⟩, fun o ho => by
        have : o = .ok none w' := ho.unique (NextG.of_step (Ev.of fun _ => rfl))
        subst this
        exact NextG.of_step (Ev.bind (f := fun n => _) h1 (Ev.of fun _ => rfl))⟩
    · intro g g' v w w' h1
      exact NextG.of_step (Ev.bind (f := fun n => _) h1 (Ev.of fun _ => rfl))
  | cons x vals ih =>
    intro cur ts hc
    obtain ⟨g0, hg0, hy⟩ := h x (by simp)
    have := ih (fun x hx => h x (by simp [hx])) hy
    unfold Yx at this ⊢
    rw [List.flatMap_cons, List.map_append]
    refine PY.append_of (F := Gen.combWild ctx (x :: vals)) ?_ ?_ hc
    · intro g w w' h1
      refine ⟨_, w', this, fun o ho => NextG.of_step (Ev.bind (f := fun n => _) h1 ?_)⟩
      exact Ev.bind (a := g0) (w1 := w') (f := fun n => _) (Ev.of fun _ => by rw [hg0]; rfl) ho
    · intro g g' v w w' h1
      exact NextG.of_step (Ev.bind (f := fun n => _) h1 (Ev.of fun _ => rfl))

theorem PY.combWrapIn {ctx : Ctx} {inner : Cmd} {wg ig : Gen} {x : Str} {qs R : List (Str → Prop)}
    (hy : PY E qs ig) (hr : PY E R (.combWrap ctx inner wg)) :
    PY E ((qs.map fun q s => ∃ y, q y ∧ s = wrapWith x y) ++ R) (.combWrapIn ctx inner wg x ig) := by
  induction qs generalizing ig with
  | nil =>
    refine PY.of_step fun w => ?_
    obtain ⟨w', h1⟩ := hy w
    exact ⟨_, w', hr, fun o ho => NextG.of_step (Ev.bind (f := fun n => _) h1 ho)⟩
  | cons q qs ih =>
    intro w
    obtain ⟨v, g', w', h1, h2, h3⟩ := hy w
    exact ⟨_, _, w', NextG.of_step (Ev.bind (f := fun n => _) h1 (Ev.of fun _ => rfl)),
      ⟨v, h2, rfl⟩, ih h3⟩

theorem PY.combWrap {ctx : Ctx} {inner : Cmd} {wg ig : Gen} {ps qs : List (Str → Prop)}
    (hi : sampleGen E ctx (.inr inner) = .ok ig) (hy : PY E qs ig) (hx : PY E ps wg) :
    PY E (ps.flatMap fun p => qs.map fun q s => ∃ x y, p x ∧ q y ∧ s = wrapWith x y)
      (.combWrap ctx inner wg) := by
  induction ps generalizing wg with
  | nil =>
    intro w
    obtain ⟨w', h1⟩ := hx w
    exact ⟨w', NextG.of_step (Ev.bind (f := fun n => _) h1 (Ev.of fun _ => rfl))⟩
  | cons p ps ih =>
    refine PY.of_step fun w => ?_
    obtain ⟨v, g', w', h1, h2, h3⟩ := hx w
    have h4 := PY.combWrapIn (x := v) hy (ih h3)
    refine ⟨_, w', PY.mono (qs := (p :: ps).flatMap _) h4 ?_, fun o ho =>
      NextG.of_step (Ev.bind (f := fun n => _) h1 ?_)⟩
    · rw [List.flatMap_cons]
      apply List.rel_append
      · rw [List.forall₂_map_left_iff, List.forall₂_map_right_iff]
        apply List.forall₂_same.2
        rintro q _ s ⟨y, hy, rfl⟩
        exact ⟨v, y, h2, hy, rfl⟩
      · exact List.forall₂_same.2 fun _ _ _ h => h
    · exact Ev.bind (a := ig) (w1 := w') (f := fun n => _) (Ev.of fun _ => by rw [hi]; rfl) ho

/-! ### Starting -/

theorem PY.start {ctx : Ctx} {c : Cmd} {ps : List (Str → Prop)}
    (hl : ∀ s m, c ≠ .lit s m)
    (hs : ∀ w, ∃ g w', (Ev fun n => startG E (recs E n) ctx c w = .ok g w') ∧ PY E ps g) :
    PY E ps (.start ctx c) := by
  refine PY.of_step fun w => ?_
  obtain ⟨g, w', h1, h2⟩ := hs w
  refine ⟨g, w', h2, fun o ho => NextG.of_step ?_⟩
  have key : Ev fun n => (startG E (recs E n) ctx c >>= fun g => (recs E n).G g) w = o :=
    Ev.bind (f := fun n g => (recs E n).G g) h1 ho
  cases c with
  | lit s m => exact absurd rfl (hl s m)
  | _ => exact key

theorem mkGen_PY_of_start {vars : List (Str × Cmd)} {being : List Str} {c : Cmd}
    {ps : List (Str → Prop)} (hc : ∀ n d, c ≠ .access n d) (ha : ∀ n v i o, c ≠ .assign n v i o)
    (hm : Finite c.method) (h : PY E ps (.start ⟨.comb, vars, being⟩ c)) :
    ∃ g, mkGen E.unknown ⟨.comb, vars, being⟩ c = .ok g ∧ PY E ps g := by
  refine ⟨_, ?_, h⟩
  have hn : effMethod .comb c.method = .comb := effMethod_finite hm
  rw [mkGen_outcome (.target hc)]
  cases c with
  | assign n v i o => exact absurd rfl (ha n v i o)
  | access n d => exact absurd rfl (hc n d)
  | wrap a b m => simp only [outcomeGen, hn]; rw [if_neg (by simp)]
  | _ => simp only [outcomeGen, hn]

theorem sampleFirst_Yx {ctx : Ctx} {p : Prompt} {x : Str} {xs : List Str}
    (h : ∃ g, sampleGen E ctx p = .ok g ∧ Yx E (x :: xs) g) (w : W) :
    ∃ w', Ev fun n => (recs E n).sampleFirst E ctx p w = .ok x w' := by
  obtain ⟨g, hg, hs⟩ := h
  obtain ⟨v, g', w1, h1, h2, -⟩ := hs w
  replace h2 : v = x := h2
  subst h2
  refine ⟨w1, ?_⟩
  unfold Recs.sampleFirst
  refine Ev.bind (a := g) (w1 := w) (f := fun n => _) (Ev.of fun _ => by rw [hg]; rfl) ?_
  exact Ev.bind (f := fun n => _) (next!_steps h1) (Ev.of fun _ => rfl)

theorem PY.variant_method {ctx : Ctx} {opts : List (Cmd × Rat)} {lo hi : Int} {sep : Str}
    {m : Option Method} {ps : List (Str → Prop)}
    (h : PY E ps (.start ctx (.variant opts lo hi sep m))) (m' : Option Method) :
    PY E ps (.start ctx (.variant opts lo hi sep m')) := by
  refine PY.of_next h fun w o ho => ?_
  obtain ⟨N, h1⟩ := ho
  refine ⟨N + 1, fun n hn => ?_⟩
  obtain ⟨n, rfl⟩ : ∃ k, n = k + 1 := ⟨n - 1, by omega⟩
  exact h1 (n + 1) (by omega)

theorem sentinel_ok {I : Coll → Prop} {vars : List (Str × Cmd)} {being : List Str} :
    TokOK E I ⟨.comb, vars, being⟩ sentinel [fun s => s = []] := by
  refine Or.inr ⟨rfl, _, rfl, fun w => ⟨[], .done, w, NextG.of_step (Ev.of fun _ => rfl), rfl,
    fun w => ⟨w, NextG.of_step (Ev.of fun _ => rfl)⟩⟩⟩

theorem forall2_snoc {α β : Type} {R : α → β → Prop} {as : List α} {bs : List β} {a : α} {b : β}
    (h : List.Forall₂ R as bs) (hab : R a b) : List.Forall₂ R (as ++ [a]) (bs ++ [b]) :=
  List.rel_append h (.cons hab .nil)

theorem forall2_snoc_inv {α β : Type} {R : α → β → Prop} {as : List α} {bs : List β} {a : α}
    (h : List.Forall₂ R (as ++ [a]) bs) : ∃ bs' b, bs = bs' ++ [b] ∧ List.Forall₂ R as bs' ∧ R a b := by
  induction as generalizing bs with
  | nil =>
    cases h with
    | cons h1 h2 => cases h2; exact ⟨[], _, rfl, .nil, h1⟩
  | cons x as ih =>
    cases h with
    | cons h1 h2 =>
      obtain ⟨bs', b, rfl, h3, h4⟩ := ih h2
      exact ⟨_ :: bs', b, rfl, .cons h1 h3, h4⟩

theorem product_pad' {α : Type} (x y : α) (xss : List (List α)) :
    product ([x] :: xss ++ [[y]]) = (product xss).map fun t => x :: t ++ [y] := by
  have : ∀ xss : List (List α), product (xss ++ [[y]]) = (product xss).map fun t => t ++ [y] := by
    intro xss
    induction xss with
    | nil => rfl
    | cons xs xss ih => simp [product, ih, List.map_flatMap, List.map_map, Function.comp_def]
  show product ([x] :: (xss ++ [[y]])) = _
  simp [product, this, List.map_map, Function.comp_def]

/-- A sequence, once its assignments are done. -/
theorem PY.seq {vars new : List (Str × Cmd)} {being : List Str} {toks toks' : List Cmd} {sep : Str}
    {m : Option Method} {Q : Cmd → Str → Prop} {pss : List (List (Str → Prop))}
    (hA : ∀ w, ∃ w', Ev fun n => (recs E n).assigns E ⟨.comb, vars, being⟩ toks w = .ok (toks', new) w')
    (hc : ∀ c ∈ toks'.filter (fun c => c.method ≠ some .comb), ∃ g,
      mkGen E.unknown ⟨.comb, new ++ vars, being⟩ c = .ok g ∧
      (c.ownNonfinite → LiveIn E (Q c) g) ∧ (¬ c.ownNonfinite → ∃ p ps, PY E (p :: ps) g))
    (ht : List.Forall₂ (TokOK E (CollInv E Q (toks'.filter (fun c => c.method ≠ some .comb)))
      ⟨.comb, new ++ vars, being⟩) toks' pss) :
    PY E ((product pss).map fun t s =>
      ∃ strs, List.Forall₂ (fun p x => p x) t strs ∧ s = joined sep ([] :: strs ++ [[]]))
      (.start ⟨.comb, vars, being⟩ (.seq toks sep m)) := by
  refine PY.start (by simp) fun w => ?_
  obtain ⟨w1, h1⟩ := hA w
  obtain ⟨coll, w2, h2, h3⟩ := mkColl_inv hc w1
  refine ⟨.combSeq sep coll (.start ⟨.comb, new ++ vars, being⟩ (sentinel :: toks' ++ [sentinel])), w2,
    ?_, ?_⟩
  · refine Ev.bind (f := fun n => _) h1 ?_
    exact Ev.bind (f := fun n => _) h2 (Ev.of fun _ => rfl)
  · have h4 := PY.combSeq (sep := sep) h3 (PYS.start (forall2_snoc (.cons sentinel_ok ht) sentinel_ok))
    refine h4.mono ?_
    rw [prodP_eq]
    have : (([fun s => s = []] :: pss) ++ [[fun s => s = []]] : List (List (Str → Prop))) =
      [fun s => s = []] :: pss ++ [[fun s => s = []]] := rfl
    rw [this, product_pad', List.map_map, List.map_map, List.forall₂_map_left_iff,
      List.forall₂_map_right_iff]
    apply List.forall₂_same.2
    rintro t _ s ⟨t', ht', rfl⟩
    cases ht' with
    | cons ha hb =>
      obtain ⟨strs, b, rfl, h5, h6⟩ := forall2_snoc_inv hb
      subst ha h6
      exact ⟨strs, h5, rfl⟩

theorem lists_finite {vars : List (Str × Cmd)} {being : List Str} {c : Cmd} {outs : List Str}
    (h : Lists E vars being c outs) : Finite c.method := by
  cases h
  case access => exact Or.inl rfl
  all_goals assumption

theorem finite_not_own {c : Cmd} (h : Finite c.method) : ¬ c.ownNonfinite := by
  rcases h with h | h <;> simp [Cmd.ownNonfinite, h]

theorem effective_finite {ctx : Ctx} {c : Cmd} (h : Finite c.method) (hm : ctx.method = .comb) :
    (ctx.effective c).nonfinite = false := by
  unfold Ctx.effective
  rcases h with h | h <;> simp [h, hm, Method.nonfinite]

theorem forall2_left {α β : Type} {R : α → β → Prop} {as : List α} {bs : List β} {a : α}
    (h : List.Forall₂ R as bs) (ha : a ∈ as) : ∃ b, R a b := by
  induction h with
  | nil => simp at ha
  | cons h1 _ ih =>
    rcases List.mem_cons.1 ha with rfl | ha
    · exact ⟨_, h1⟩
    · exact ih ha

mutual
theorem lists_Yx {vars : List (Str × Cmd)} {being : List Str} {c : Cmd} {outs : List Str}
    (h : Lists E vars being c outs) :
    ∃ g, mkGen E.unknown ⟨.comb, vars, being⟩ c = .ok g ∧ Yx E outs g := by
  match h with
  | .lit (s := s) hm =>
    refine mkGen_PY_of_start (by simp) (by simp) hm ?_
    exact fun w => ⟨s, .done, w, NextG.of_step (Ev.of fun _ => rfl), rfl, Yx.done⟩
  | .seq (sep := sep) (toks' := toks') (new := new) (outss := outss) hm hA hall =>
    refine mkGen_PY_of_start (by simp) (by simp) hm ?_
    have h1 := listsAssigned_Yx hA
    have h2 := listsTokens_Yx hall
    refine (PY.seq (Q := fun _ _ => True) (pss := outss.map fun xs => xs.map fun o s => s = o) h1 ?_
      ?_).mono ?_
    · intro c hc
      obtain ⟨hc, hm'⟩ := List.mem_filter.1 hc
      obtain ⟨outs, hf, hne, g, hg, hy⟩ := forall2_left h2 hc
      refine ⟨g, hg, fun hn => absurd hn (finite_not_own hf), fun _ => ?_⟩
      have hnone : c.method = none := by
        rcases hf with hf | hf
        · exact hf
        · simp [hf] at hm'
      cases outs with
      | nil => exact absurd rfl (hne hnone)
      | cons o outs => exact ⟨_, _, hy⟩
    · rw [List.forall₂_map_right_iff]
      refine h2.imp fun c outs ⟨hf, _, g, hg, hy⟩ => Or.inr ⟨?_, g, hg, hy⟩
      exact effective_finite hf rfl
    · have := prodP_exact outss
      rw [prodP_eq] at this
      have h3 : (product (outss.map fun xs => xs.map fun o s => s = o)).map (fun t s =>
          ∃ strs, List.Forall₂ (fun p x => p x) t strs ∧ s = joined sep ([] :: strs ++ [[]])) =
          ((product outss).map fun t => joined sep ([] :: t ++ [[]])).map fun o s => s = o := by
        have := congrArg (List.map fun (P : List Str → Prop) (s : Str) =>
          ∃ strs, P strs ∧ s = joined sep ([] :: strs ++ [[]])) this
        simpa [List.map_map, Function.comp_def] using this
      rw [h3]
      exact List.forall₂_same.2 fun _ _ _ h => h
  | .empty hm =>
    refine mkGen_PY_of_start (by simp) (by simp) hm ?_
    exact PY.start (by simp) fun w => ⟨.done, w, Ev.of fun _ => rfl, Yx.done⟩
  | .variant (opts := opts) (lo := lo) (hi := hi) (sep := sep) f hm hs hne hopts =>
    refine mkGen_PY_of_start (by simp) (by simp) hm ?_
    have hopts' : ∀ p ∈ opts, ∃ g, mkGen E.unknown ⟨.comb, vars, being⟩ p.1 = .ok g ∧
        Yx E (f p.1) g := fun p hp => lists_Yx (hopts p hp)
    have hfin : ∀ p ∈ opts, Finite p.1.method := fun p hp => lists_finite (hopts p hp)
    have hall : ∀ c ∈ opts.map (·.1), (Ctx.effective ⟨.comb, vars, being⟩ c).nonfinite = false ∧
        ∃ g, mkGen E.unknown ⟨.comb, vars, being⟩ c = .ok g ∧ Yx E (f c) g := by
      intro c hc
      obtain ⟨o, ho, rfl⟩ := List.mem_map.1 hc
      exact ⟨effective_finite (hfin o ho) rfl, hopts' o ho⟩
    have hv := Yx.combVar (E := E) (ctx := ⟨.comb, vars, being⟩) (sep := sep)
        (tup := fun combo => product (combo.map f))
        (pend := boundCombos (opts.map (·.1)) (adjustBounds opts.length lo hi).1
          (adjustBounds opts.length lo hi).2) (by
          rintro ⟨b, combo⟩ hmem
          obtain ⟨-, -, hc⟩ := (mem_boundCombos (adjust_nonneg _ _ _)).1 hmem
          obtain ⟨hlen, -, hsub⟩ := mem_getCombos.1 hc
          refine ⟨YP.start (fun c hc => hall c (hsub c hc)), ?_⟩
          intro t ht
          rw [product_length ht, List.length_map, hlen]) []
    have hlist : (boundCombos (opts.map (·.1)) (adjustBounds opts.length lo hi).1
            (adjustBounds opts.length lo hi).2).flatMap (fun p => product (p.2.map f)) =
          (variantSelections opts lo hi).flatMap fun sel => product (sel.map f) := by
      rw [boundCombos_flat]
      simp [variantSelections, List.flatMap_assoc, List.flatMap_map]
    rw [firsts_eq, hlist] at hv
    have hv' : Yx E (variantTexts opts lo hi sep f) (.combVar ⟨.comb, vars, being⟩ sep []
        (boundCombos (opts.map (·.1)) (adjustBounds opts.length lo hi).1
            (adjustBounds opts.length lo hi).2)) := by
      unfold variantTexts
      simpa using hv
    refine PY.start (by simp) (fun w => ⟨_, w, Ev.of fun n => ?_, hv'⟩)
    match opts, hne, hs with
    | [(c, wt)], _, hs =>
      cases c with
      | wild p m v => exact absurd ⟨p, m, v, wt, rfl⟩ hs
      | _ => rfl
    | (a, _) :: b :: l, _, _ => cases a <;> rfl
  | .variantWild (path := path) (m' := m') (lo := lo) (hi := hi) (sep := sep) (items := items)
      (cs := cs) hm hpath hans hparse hvar =>
    refine mkGen_PY_of_start (by simp) (by simp) hm ?_
    have hp := listsPrompt_Yx hpath
    obtain ⟨g, hg, hst⟩ := lists_Yx hvar
    have hg' : g = .start ⟨.comb, vars, being⟩ (Cmd.mkVariant (cs.map (fun c => (c, 1)))
        (min lo items.length) (min hi items.length) sep none) := by
      rw [mkGen_outcome (.target (by simp [Cmd.mkVariant]))] at hg
      simp only [outcomeGen, Cmd.mkVariant] at hg
      cases hg
      rfl
    subst hg'
    refine PY.start (by simp) (fun w => ?_)
    obtain ⟨w1, h1⟩ := sampleFirst_Yx hp w
    obtain ⟨w2, h2⟩ := hans w1
    refine ⟨_, w2, ?_, PY.variant_method hst m'⟩
    refine Ev.bind (w1 := w2) (f := fun n => _) ?_ (Ev.of fun n => rfl)
    refine Ev.bind (f := fun n => _) h1 (Ev.of fun n => ?_)
    rw [M.bind_of_ok h2, mapM_of_parses hparse]
    rfl
  | .wild (path := path) (v := v) (items := items) f hm hpath hans hne hvals =>
    refine mkGen_PY_of_start (by simp) (by simp) hm ?_
    have hp := listsPrompt_Yx hpath
    have hvals' : ∀ x ∈ iterateWeighted items, ∃ g,
        sampleGen E ⟨.comb, v ++ vars, being⟩ (.inl x) = .ok g ∧ Yx E (f x) g :=
      fun x hx => listsPrompt_Yx (hvals x hx)
    refine PY.start (by simp) (fun w => ?_)
    obtain ⟨w1, h1⟩ := sampleFirst_Yx hp w
    obtain ⟨w2, h2⟩ := hans w1
    refine ⟨.combWild ⟨.comb, v ++ vars, being⟩ (iterateWeighted items) .done, w2,
      Ev.bind (f := fun n => _) h1 (Ev.bind (f := fun n => _) (Ev.of fun _ => h2)
      (Ev.of fun _ => ?_)), ?_⟩
    · have hie : items.isEmpty = false := by simpa using hne
      dsimp only
      rw [hie]
      rfl
    · have := Yx.combWild hvals' (cur := .done) (ts := []) Yx.done
      rw [List.nil_append] at this
      exact this
  | .access hr hb h' =>
    obtain ⟨g, hg, hl⟩ := lists_Yx h'
    refine ⟨g, ?_, hl⟩
    obtain ⟨o, ho⟩ := chain_total E.unknown vars (_ :: being) _
    rw [mkGen_outcome (ctx := ⟨.comb, vars, being⟩) (.step hr hb ho), ← hg,
      mkGen_outcome (ctx := ⟨.comb, vars, _ :: being⟩) ho]
    cases o <;> rfl
  | .wrap (w := w0) (i := i) (xs := xs) (ys := ys) hm hw hi =>
    refine mkGen_PY_of_start (by simp) (by simp) hm ?_
    obtain ⟨wg, hwg, hwy⟩ := listsPrompt_Yx hw
    obtain ⟨ig, hig, hiy⟩ := listsPrompt_Yx hi
    refine PY.start (by simp) (fun w => ⟨.combWrap ⟨.comb, vars, being⟩ i wg, w, Ev.of fun n => ?_, ?_⟩)
    · simp only [startG, hwg]; rfl
    · have := PY.combWrap (ctx := ⟨.comb, vars, being⟩) hig hiy hwy
      convert this using 1
      simp only [List.map_flatMap, List.flatMap_map, List.map_map, Function.comp_def]
      congr 1
      funext x
      congr 1
      funext y s
      simp
theorem listsTokens_Yx {vars : List (Str × Cmd)} {being : List Str} {cs : List Cmd}
    {outss : List (List Str)} (h : ListsTokens E vars being cs outss) :
    List.Forall₂ (fun c outs => Finite c.method ∧ (c.method = none → outs ≠ []) ∧
      ∃ g, mkGen E.unknown ⟨.comb, vars, being⟩ c = .ok g ∧ Yx E outs g) cs outss := by
  match h with
  | .nil => exact .nil
  | .cons h2 h3 h4 => exact .cons ⟨lists_finite h2, h3, lists_Yx h2⟩ (listsTokens_Yx h4)
theorem listsPrompt_Yx {vars : List (Str × Cmd)} {being : List Str} {p : Prompt}
    {outs : List Str} (h : ListsPrompt E vars being p outs) :
    ∃ g, sampleGen E ⟨.comb, vars, being⟩ p = .ok g ∧ Yx E outs g := by
  match h with
  | .none => exact ⟨.done, rfl, Yx.done⟩
  | .text (s := s) hne hp hc =>
    obtain ⟨g, hg, hl⟩ := lists_Yx hc
    refine ⟨if E.ignoreWs then .squash g else g, ?_, Yx.squashIf hl⟩
    cases s with
    | nil => exact absurd rfl hne
    | cons a s => simp [sampleGen, hp, hg]
  | .empty ht => exact ⟨.done, by simp [sampleGen, ht], Yx.done⟩
  | .cmd ht hc =>
    obtain ⟨g, hg, hl⟩ := lists_Yx hc
    exact ⟨if E.ignoreWs then .squash g else g, by simp [sampleGen, ht, hg], Yx.squashIf hl⟩
theorem listsAssigned_Yx {vars : List (Str × Cmd)} {being : List Str} {toks toks' : List Cmd}
    {new : List (Str × Cmd)} (h : ListsAssigned E vars being toks toks' new) (w : W) :
    ∃ w', Ev fun n => (recs E n).assigns E ⟨.comb, vars, being⟩ toks w = .ok (toks', new) w' := by
  match h with
  | .nil => exact ⟨w, Ev.of fun _ => rfl⟩
  | .tok (c := c) hc h' =>
    obtain ⟨w1, h1⟩ := listsAssigned_Yx h' w
    refine ⟨w1, ?_⟩
    cases c with
    | assign n v i o => exact absurd rfl (hc n v i o)
    | _ => exact Ev.bind (f := fun n => _) h1 (Ev.of fun _ => rfl)
  | .keep (n := name) (v := v) (i := i) (c := c) hl h' =>
    obtain ⟨w1, h1⟩ := listsAssigned_Yx h' w
    refine ⟨w1, ?_⟩
    refine Ev.bind (f := fun n => _) (a := c) (w1 := w) (Ev.of fun n => ?_)
      (Ev.bind (f := fun n => _) h1 (Ev.of fun _ => rfl))
    simp [Recs.assign, hl]
  | .plain (n := name) (v := v) (o := o) ho h' =>
    obtain ⟨w1, h1⟩ := listsAssigned_Yx h' w
    refine ⟨w1, ?_⟩
    refine Ev.bind (f := fun n => _) (a := v) (w1 := w) (Ev.of fun n => ?_)
      (Ev.bind (f := fun n => _) h1 (Ev.of fun _ => rfl))
    have : (if o = true then none else vars.lookup name) = none := by
      rcases ho with rfl | ho
      · rfl
      · simp [ho]
    simp [Recs.assign, this]
  | .literal (n := name) (s := s) (m := m) (o := o) ho h' =>
    obtain ⟨w1, h1⟩ := listsAssigned_Yx h' w
    refine ⟨w1, ?_⟩
    refine Ev.bind (f := fun n => _) (a := .lit s m) (w1 := w) (Ev.of fun n => ?_)
      (Ev.bind (f := fun n => _) h1 (Ev.of fun _ => rfl))
    have : (if o = true then none else vars.lookup name) = none := by
      rcases ho with rfl | ho
      · rfl
      · simp [ho]
    simp [Recs.assign, this]
  | .immediate (n := name) (v := v) (o := o) (x := x) ho hv hc h' =>
    obtain ⟨g, hg, hs⟩ := lists_Yx hc
    obtain ⟨x', g', w1, h1, h1', -⟩ := hs w
    replace h1' : x' = x := h1'
    subst h1'
    obtain ⟨w2, h2⟩ := listsAssigned_Yx h' w1
    refine ⟨w2, ?_⟩
    have : (if o = true then none else vars.lookup name) = none := by
      rcases ho with rfl | ho
      · rfl
      · simp [ho]
    have key : Ev fun n => (do
        let g ← M.lift (mkGen E.unknown ⟨.comb, vars, being⟩ v)
        let (v, _) ← (recs E n).next! g
        return Cmd.lit v none : M W Cmd) w = .ok (.lit x' none) w1 := by
      refine Ev.bind (a := g) (w1 := w) (f := fun n => _) (Ev.of fun _ => by rw [hg]; rfl) ?_
      exact Ev.bind (f := fun n => _) (next!_steps h1) (Ev.of fun _ => rfl)
    refine Ev.bind (f := fun n => _) (a := .lit x' none) (w1 := w1) ?_
      (Ev.bind (f := fun n => _) h2 (Ev.of fun _ => rfl))
    unfold Recs.assign
    simp only [this, if_true]
    cases v with
    | lit s m => exact absurd rfl (hv s m)
    | _ => exact key
end

theorem PY.collect {ps : List (Str → Prop)} {g : Gen} (h : PY E ps g) (w : W) :
    ∃ outs, List.Forall₂ (fun p s => p s) ps outs ∧ Ev fun n =>
      (∀ k, (collect E n k g w).1 = outs.take k) ∧
      (∀ k, outs.length < k → ∃ w', (Verif.collect E n k g w).2 = .stop w') := by
  induction ps generalizing g w with
  | nil =>
    obtain ⟨w', h1⟩ := h w
    refine ⟨[], .nil, h1.mp fun n h => ⟨fun k => ?_, fun k hk => ?_⟩⟩
    · cases k with
      | zero => simp [Verif.collect]
      | succ k => simp [Verif.collect, nextG, h]
    · cases k with
      | zero => simp at hk
      | succ k => exact ⟨w', by simp [Verif.collect, nextG, h]⟩
  | cons p ps ih =>
    obtain ⟨v, g', w', h1, h2, h3⟩ := h w
    obtain ⟨outs, h4, h5⟩ := ih h3 w'
    refine ⟨v :: outs, .cons h2 h4, (Ev.and h1 h5).mp fun n ⟨h, ih⟩ => ⟨fun k => ?_, fun k hk => ?_⟩⟩
    · cases k with
      | zero => simp [Verif.collect]
      | succ k =>
        simp only [Verif.collect, nextG, h, List.take_succ_cons]
        rw [ih.1 k]
    · cases k with
      | zero => simp at hk
      | succ k =>
        simp only [Verif.collect, nextG, h]
        exact ih.2 k (by simpa using hk)

theorem forall2_exact {ts outs : List Str}
    (h : List.Forall₂ (fun (p : Str → Prop) s => p s) (ts.map fun o s => s = o) outs) : outs = ts := by
  rw [List.forall₂_map_left_iff] at h
  induction h with
  | nil => rfl
  | cons h1 _ ih => rw [h1, ih]

theorem prod_liveIn {vars : List (Str × Cmd)} {being : List Str} {c : Cmd}
    (h : Prod E .comb vars being c) :
    ∃ g, mkGen E.unknown ⟨.comb, vars, being⟩ c = .ok g ∧ LiveIn E (Lang E vars c) g := by
  obtain ⟨g, hg, hl⟩ := prod_live h
  exact ⟨g, hg, hl, _, _, mkGen_GOk hg⟩

theorem forall2_of_zip {α β : Type} {R : α → β → Prop} {as : List α} {bs : List β}
    (hl : as.length = bs.length) (h : ∀ a b, (a, b) ∈ as.zip bs → R a b) : List.Forall₂ R as bs := by
  induction as generalizing bs with
  | nil => cases bs with
    | nil => exact .nil
    | cons => simp at hl
  | cons a as ih => cases bs with
    | nil => simp at hl
    | cons b bs =>
      exact .cons (h a b (by simp)) (ih (by simpa using hl) fun a b hab => h a b (by simp [hab]))

theorem counted_PY {vars : List (Str × Cmd)} {being : List Str} {c : Cmd} {ps : List (Str → Prop)}
    (h : Counted E vars being c ps) :
    Finite c.method ∧ ∃ g, mkGen E.unknown ⟨.comb, vars, being⟩ c = .ok g ∧ PY E ps g := by
  induction h with
  | exact h => exact ⟨lists_finite h, lists_Yx h⟩
  | @seq vars being toks sep m toks' new pss hm hA hlen hfin hne hnf ih =>
    refine ⟨hm, mkGen_PY_of_start (by simp) (by simp) hm ?_⟩
    have key : List.Forall₂ (fun c ps => (Finite c.method ∧ (c.method = none → ps ≠ []) ∧
        ∃ g, mkGen E.unknown ⟨.comb, new ++ vars, being⟩ c = .ok g ∧ PY E ps g) ∨
        (c.ownNonfinite ∧ ps = [Lang E (new ++ vars) c] ∧ ∃ g,
          mkGen E.unknown ⟨.comb, new ++ vars, being⟩ c = .ok g ∧
          LiveIn E (Lang E (new ++ vars) c) g)) toks' pss := by
      refine forall2_of_zip hlen fun c ps hcp => ?_
      cases hm' : c.method with
      | none => exact Or.inl ⟨Or.inl rfl, fun _ => hne c ps hcp hm', (ih c ps hcp (Or.inl hm')).2⟩
      | some m' =>
        cases m' with
        | comb => exact Or.inl ⟨Or.inr rfl, fun h => by simp at h, (ih c ps hcp (Or.inr hm')).2⟩
        | random =>
          obtain ⟨h1, h2⟩ := hnf c ps hcp (Or.inl hm')
          exact Or.inr ⟨Or.inl hm', h2, prod_liveIn h1⟩
        | cyc =>
          obtain ⟨h1, h2⟩ := hnf c ps hcp (Or.inr hm')
          exact Or.inr ⟨Or.inr hm', h2, prod_liveIn h1⟩
    refine PY.seq (Q := Lang E (new ++ vars)) (listsAssigned_Yx hA) ?_ ?_
    · intro c hc
      obtain ⟨hc, hm'⟩ := List.mem_filter.1 hc
      obtain ⟨ps, h | ⟨hn, -, g, hg, hl⟩⟩ := forall2_left key hc
      · obtain ⟨hf, hne, g, hg, hy⟩ := h
        refine ⟨g, hg, fun hn => absurd hn (finite_not_own hf), fun _ => ?_⟩
        have hnone : c.method = none := by
          rcases hf with hf | hf
          · exact hf
          · simp [hf] at hm'
        cases ps with
        | nil => exact absurd rfl (hne hnone)
        | cons o outs => exact ⟨_, _, hy⟩
      · exact ⟨g, hg, fun _ => hl, fun h => absurd hn h⟩
    · have hmem : ∀ c ∈ toks', c.ownNonfinite →
          c ∈ toks'.filter (fun c => c.method ≠ some .comb) := by
        intro c hc hn
        refine List.mem_filter.2 ⟨hc, ?_⟩
        rcases hn with hn | hn <;> simp [hn]
      revert hmem
      generalize toks'.filter (fun c => c.method ≠ some .comb) = cs
      intro hmem
      clear hlen hfin hne hnf ih hA
      induction key with
      | nil => exact .nil
      | @cons c ps toks' pss h1 _ ih =>
        refine .cons ?_ (ih fun c hc => hmem c (by simp [hc]))
        rcases h1 with ⟨hf, -, g, hg, hy⟩ | ⟨hn, rfl, -⟩
        · exact Or.inr ⟨effective_finite hf rfl, g, hg, hy⟩
        · refine Or.inl ⟨?_, _, rfl, gives_coll (Q := Lang E (new ++ vars)) (hmem c (by simp) hn) hn⟩
          unfold Ctx.effective
          rcases hn with hn | hn <;> simp [hn, Method.nonfinite]
  | @wrap vars being w i m ps qs hm hw hi _ _ ihw ihi =>
    refine ⟨hm, mkGen_PY_of_start (by simp) (by simp) hm ?_⟩
    obtain ⟨-, wg, hwg, hwy⟩ := ihw
    obtain ⟨-, ig, hig, hiy⟩ := ihi
    have hwg' : sampleGen E ⟨.comb, vars, being⟩ (.inr w) =
        .ok (if E.ignoreWs then .squash wg else wg) := by simp [sampleGen, hw, hwg]
    have hig' : sampleGen E ⟨.comb, vars, being⟩ (.inr i) =
        .ok (if E.ignoreWs then .squash ig else ig) := by simp [sampleGen, hi, hig]
    refine PY.start (by simp) (fun w0 => ⟨.combWrap ⟨.comb, vars, being⟩ i
      (if E.ignoreWs then .squash wg else wg), w0, Ev.of fun n => ?_, ?_⟩)
    · simp only [startG, hwg']; rfl
    · have := PY.combWrap (ctx := ⟨.comb, vars, being⟩) hig' hiy.squashIf hwy.squashIf
      convert this using 1
      simp only [List.flatMap_map, List.map_map, Function.comp_def]
      congr 1
      funext p
      congr 1
      funext q s
      apply propext
      constructor
      · rintro ⟨x, y, hx, hy, rfl⟩
        exact ⟨_, _, ⟨x, hx, rfl⟩, ⟨y, hy, rfl⟩, rfl⟩
      · rintro ⟨_, _, ⟨x, hx, rfl⟩, ⟨y, hy, rfl⟩, rfl⟩
        exact ⟨x, y, hx, hy, rfl⟩

end Verif
