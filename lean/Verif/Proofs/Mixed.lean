import Verif.Proofs.Lists
import Verif.Spec.Mixed
/-! Sequences with tokens marked cyclical: positions of the tokens' streams. -/

namespace Verif
open Spec Props
variable {W : Type} {E : Env W}

/-- The generator never runs dry, its `i`-th text satisfying `Q i`. -/
def FlowsAt (E : Env W) (Q : Nat → Str → Prop) (i : Nat) (g : Gen) : Prop :=
  ∃ L : Nat → Gen → Prop, L i g ∧ ∀ i g, L i g → ∀ w, ∃ v g' w',
    NextG E g w (.ok (some (v, g')) w') ∧ Q i v ∧ L (i + 1) g'

theorem FlowsAt.out {Q : Nat → Str → Prop} {i : Nat} {g : Gen} (h : FlowsAt E Q i g) (w : W) :
    ∃ v g' w', NextG E g w (.ok (some (v, g')) w') ∧ Q i v ∧ FlowsAt E Q (i + 1) g' := by
  obtain ⟨L, h1, h2⟩ := h
  obtain ⟨v, g', w', h3, h4, h5⟩ := h2 i g h1 w
  exact ⟨v, g', w', h3, h4, L, h5, h2⟩

theorem FlowsAt.coind {Q : Nat → Str → Prop} {P : Nat → Gen → Prop} {i : Nat} {g : Gen} (h0 : P i g)
    (h : ∀ i g, P i g → ∀ w, ∃ v g' w', NextG E g w (.ok (some (v, g')) w') ∧ Q i v ∧ P (i + 1) g') :
    FlowsAt E Q i g := ⟨P, h0, h⟩

theorem FlowsAt.of_streams {f : Nat → Str} {g : Gen} (h : Streams E g f) :
    FlowsAt E (fun i v => v = f i) 0 g := by
  obtain ⟨st, rfl, h⟩ := h
  refine FlowsAt.coind (P := fun i g => g = st i) rfl ?_
  rintro i _ rfl w
  obtain ⟨w', h1⟩ := h i w
  exact ⟨_, _, w', h1, rfl, rfl⟩

theorem FlowsAt.of_liveIn {Q : Str → Prop} {g : Gen} (h : LiveIn E Q g) (i : Nat) :
    FlowsAt E (fun _ => Q) i g := by
  refine FlowsAt.coind (P := fun _ g => LiveIn E Q g) h ?_
  intro i g h w
  obtain ⟨v, g', w', h1, h2, h3⟩ := h.out w
  exact ⟨v, g', w', h1, h2, h3⟩

theorem FlowsAt.mono {Q R : Nat → Str → Prop} {i : Nat} {g : Gen} (h : FlowsAt E Q i g)
    (hqr : ∀ i v, Q i v → R i v) : FlowsAt E R i g := by
  obtain ⟨L, h1, h2⟩ := h
  refine ⟨L, h1, fun i g hL w => ?_⟩
  obtain ⟨v, g', w', h3, h4, h5⟩ := h2 i g hL w
  exact ⟨v, g', w', h3, hqr _ _ h4, h5⟩

theorem FlowsAt.squashIf {Q : Nat → Str → Prop} {i : Nat} {g : Gen} (h : FlowsAt E Q i g) :
    FlowsAt E (fun i s => ∃ x, Q i x ∧ s = squashIf E.ignoreWs x) i
      (if E.ignoreWs then .squash g else g) := by
  cases hw : E.ignoreWs
  · exact h.mono fun i v hv => ⟨v, hv, by simp [Spec.squashIf]⟩
  · refine FlowsAt.coind (P := fun i x => ∃ g, x = .squash g ∧ FlowsAt E Q i g) ⟨g, rfl, h⟩ ?_
    rintro i _ ⟨g, rfl, h⟩ w
    obtain ⟨v, g', w', h1, h2, h3⟩ := h.out w
    exact ⟨squashWhitespace v, .squash g', w', NextG.of_step (Ev.bind (f := fun n => _) h1
      (Ev.of fun _ => rfl)), ⟨v, h2, by simp [Spec.squashIf]⟩, g', rfl, h3⟩

theorem FlowsAt.collect {Q : Nat → Str → Prop} {i : Nat} {g : Gen} (h : FlowsAt E Q i g) (k : Nat)
    (w : W) : Ev fun n => (collect E n k g w).1.length = k ∧
      (∀ j s, (Verif.collect E n k g w).1[j]? = some s → Q (i + j) s) := by
  induction k generalizing i g w with
  | zero => exact Ev.of fun n => ⟨rfl, by simp [Verif.collect]⟩
  | succ k ih =>
    obtain ⟨v, g', w', h1, h2, h3⟩ := h.out w
    refine (Ev.and h1 (ih h3 w')).mp fun n ⟨h1, h4, h5⟩ => ?_
    simp only [Verif.collect, nextG, h1]
    refine ⟨by simp [h4], fun j s hj => ?_⟩
    cases j with
    | zero => simp at hj; subst hj; exact h2
    | succ j =>
      have := h5 j s (by simpa using hj)
      rwa [show i + (j + 1) = i + 1 + j by omega]

theorem rotate_flows {Qs : List (Nat → Str → Prop)} {gs : List Gen} {i : Nat}
    (h : List.Forall₂ (fun Q g => FlowsAt E Q i g) Qs gs) (w : W) :
    ∃ vs gs' w', (Ev fun n => (recs E n).rotate gs w = .ok (vs, gs') w') ∧
      List.Forall₂ (fun Q v => Q i v) Qs vs ∧ List.Forall₂ (fun Q g => FlowsAt E Q (i + 1) g) Qs gs' := by
  induction h generalizing w with
  | nil => exact ⟨[], [], w, Ev.of fun _ => rfl, .nil, .nil⟩
  | cons h _ ih =>
    obtain ⟨v, g', w1, h1, h2, h3⟩ := h.out w
    obtain ⟨vs, gs', w2, h4, h5, h6⟩ := ih w1
    exact ⟨v :: vs, g' :: gs', w2, Ev.bind (f := fun n => _) (next!_steps h1)
      (Ev.bind (f := fun _ _ => _) h4 (Ev.of fun _ => rfl)), .cons h2 h5, .cons h3 h6⟩

theorem flows_seqNF {sep : Str} {Qs : List (Nat → Str → Prop)} {gs : List Gen} {i : Nat}
    (h : List.Forall₂ (fun Q g => FlowsAt E Q i g) Qs gs) :
    FlowsAt E (fun i s => ∃ strs, List.Forall₂ (fun Q v => Q i v) Qs strs ∧ s = joined sep strs) i
      (.seqNF sep gs) := by
  refine FlowsAt.coind (P := fun i g => ∃ gs, g = .seqNF sep gs ∧
    List.Forall₂ (fun Q g => FlowsAt E Q i g) Qs gs) ⟨gs, rfl, h⟩ ?_
  rintro i _ ⟨gs, rfl, h⟩ w
  obtain ⟨vs, gs', w', h1, h2, h3⟩ := rotate_flows h w
  exact ⟨_, _, w', NextG.of_step (Ev.bind (f := fun _ _ => _) h1 (Ev.of fun _ => rfl)),
    ⟨vs, h2, rfl⟩, gs', rfl, h3⟩

/-- A command marked cyclical is sampled cyclically whatever the context. -/
theorem mkGen_marked_cyc {u : Option Cmd} {m : Method} {vars : List (Str × Cmd)} {being : List Str}
    {c : Cmd} (hc : c.method = some .cyc) :
    mkGen u ⟨m, vars, being⟩ c = mkGen u ⟨.cyc, vars, being⟩ c := by
  have ha : ∀ n d, c ≠ .access n d := by rintro n d rfl; simp [Cmd.method] at hc
  rw [mkGen_outcome (ctx := ⟨m, vars, being⟩) (.target ha),
    mkGen_outcome (ctx := ⟨.cyc, vars, being⟩) (.target ha)]
  have : effMethod m c.method = effMethod .cyc c.method := by rw [hc]; cases m <;> rfl
  cases c <;> simp only [outcomeGen, this]

/-! ### Combinatorial sequences -/

/-- `get_sequence`, with an invariant `J n` of its collection, where `n c` is the number of values
taken for command `c` so far; each result takes `d c` values for each `c`. -/
def PZS (E : Env W) (J : (Cmd → Nat) → Coll → Prop) (d : Cmd → Nat) :
    List ((Cmd → Nat) → List Str → Prop) → SFrame → Prop
  | [], fr => ∀ n coll, J n coll → ∀ w, ∃ coll' w', NextS E coll fr w (.ok (coll', none) w') ∧ J n coll'
  | q :: qs, fr => ∀ n coll, J n coll → ∀ w, ∃ coll' v fr' w',
      NextS E coll fr w (.ok (coll', some (v, fr')) w') ∧ J (fun c => n c + d c) coll' ∧ q n v ∧
      PZS E J d qs fr'

variable {J : (Cmd → Nat) → Coll → Prop}

theorem PZS.of_step {d : Cmd → Nat} {ps : List ((Cmd → Nat) → List Str → Prop)} {fr : SFrame}
    (h : ∀ n coll, J n coll → ∀ w, ∃ coll' fr' w', J n coll' ∧ PZS E J d ps fr' ∧
      ∀ o, NextS E coll' fr' w' o → NextS E coll fr w o) : PZS E J d ps fr := by
  cases ps with
  | nil =>
    intro n coll hc w
    obtain ⟨coll', fr', w', h0, h1, h2⟩ := h n coll hc w
    obtain ⟨c2, w2, h3, h4⟩ := h1 n coll' h0 w'
    exact ⟨c2, w2, h2 _ h3, h4⟩
  | cons p ps =>
    intro n coll hc w
    obtain ⟨coll', fr', w', h0, h1, h2⟩ := h n coll hc w
    obtain ⟨c2, v, g1, w2, h3, h4⟩ := h1 n coll' h0 w'
    exact ⟨c2, v, g1, w2, h2 _ h3, h4⟩

/-- First `x`, then what `q` says. -/
def consZ (x : Str) (q : (Cmd → Nat) → List Str → Prop) : (Cmd → Nat) → List Str → Prop :=
  fun n t => ∃ t', t = x :: t' ∧ q n t'

theorem PZS.finIn {d : Cmd → Nat} {ctx : Ctx} {cs : List Cmd} {g : Gen} {v : Str}
    {ps qs : List ((Cmd → Nat) → List Str → Prop)} {cur : SFrame} (hc : PZS E J d ps cur)
    (hr : PZS E J d qs (.fin ctx cs g)) :
    PZS E J d (ps.map (consZ v) ++ qs) (.finIn ctx cs g v cur) := by
  induction ps generalizing cur with
  | nil =>
    refine PZS.of_step fun n coll hI w => ?_
    obtain ⟨coll', w', h1, h2⟩ := hc n coll hI w
    exact ⟨coll', _, w', h2, hr, fun o ho => NextS.of_step (Ev.bind (f := fun n => _) h1 ho)⟩
  | cons q ps ih =>
    intro n coll hI w
    obtain ⟨coll', t, fr', w', h1, h2, h3, h4⟩ := hc n coll hI w
    exact ⟨coll', v :: t, _, w', NextS.of_step (Ev.bind (f := fun n => _) h1 (Ev.of fun _ => rfl)),
      h2, ⟨_, rfl, h3⟩, ih h4⟩

theorem PZS.fin {d : Cmd → Nat} {ctx : Ctx} {cs : List Cmd} {g : Gen} {xs : List Str}
    {qs : List ((Cmd → Nat) → List Str → Prop)} (hg : Yx E xs g) (hc : PZS E J d qs (.start ctx cs)) :
    PZS E J d (xs.flatMap fun x => qs.map (consZ x)) (.fin ctx cs g) := by
  induction xs generalizing g with
  | nil =>
    intro n coll hI w
    obtain ⟨w', h1⟩ := hg w
    exact ⟨coll, w', NextS.of_step (Ev.bind (f := fun n => _) h1 (Ev.of fun _ => rfl)), hI⟩
  | cons x xs ih =>
    refine PZS.of_step fun n coll hI w => ?_
    obtain ⟨v, g', w', h1, h2, h3⟩ := hg w
    replace h2 : v = x := h2
    subst h2
    exact ⟨coll, _, w', hI, PZS.finIn hc (ih h3),
      fun o ho => NextS.of_step (Ev.bind (f := fun n => _) h1 ho)⟩

/-- One more value taken for `c`. -/
def bump (c : Cmd) (n : Cmd → Nat) : Cmd → Nat := fun c' => n c' + if c' = c then 1 else 0

/-- A value can be taken from the collection for command `c`, satisfying `Q` at its position. -/
def GivesAt (E : Env W) (J : (Cmd → Nat) → Coll → Prop) (c : Cmd) (Q : Nat → Str → Prop) : Prop :=
  ∀ n coll, J n coll → ∀ w, ∃ v coll' w',
    (Ev fun fuel => (recs E fuel).getValue c coll w = .ok (some v, coll') w') ∧ J (bump c n) coll' ∧
      Q (n c) v

/-- First a value for `c`, then what `q` says; the values of `q` are taken before. -/
def nfZ (d : Cmd → Nat) (c : Cmd) (Q : Nat → Str → Prop) (q : (Cmd → Nat) → List Str → Prop) :
    (Cmd → Nat) → List Str → Prop :=
  fun n t => ∃ x t', t = x :: t' ∧ Q (n c + d c) x ∧ q n t'

theorem PZS.nf {d : Cmd → Nat} {c : Cmd} {Q : Nat → Str → Prop}
    {qs : List ((Cmd → Nat) → List Str → Prop)} {rest : SFrame} (hc : GivesAt E J c Q)
    (hr : PZS E J d qs rest) : PZS E J (bump c d) (qs.map (nfZ d c Q)) (.nf c rest) := by
  induction qs generalizing rest with
  | nil =>
    intro n coll hI w
    obtain ⟨coll', w', h1, h2⟩ := hr n coll hI w
    exact ⟨coll', w', NextS.of_step (Ev.bind (f := fun n => _) h1 (Ev.of fun _ => rfl)), h2⟩
  | cons q qs ih =>
    intro n coll hI w
    obtain ⟨coll', t, fr', w', h1, h2, h3, h4⟩ := hr n coll hI w
    obtain ⟨v, coll2, w2, h5, h6, h7⟩ := hc _ coll' h2 w'
    refine ⟨coll2, v :: t, _, w2, NextS.of_step (Ev.bind (f := fun n => _) h1
      (Ev.bind (f := fun n => _) h5 (Ev.of fun _ => rfl))), ?_, ⟨_, _, rfl, h7, h3⟩, ih h4⟩
    have : (fun c' => n c' + bump c d c') = bump c (fun c' => n c' + d c') := by
      funext c'; simp only [bump]; omega
    rw [this]; exact h6

/-- What is needed of each token: non-finite, with `none`, or finite, with its texts. -/
def TokAt (E : Env W) (J : (Cmd → Nat) → Coll → Prop) (Q : Cmd → Nat → Str → Prop) (ctx : Ctx)
    (c : Cmd) : Option (List Str) → Prop
  | none => (ctx.effective c).nonfinite = true ∧ GivesAt E J c (Q c)
  | some xs => (ctx.effective c).nonfinite = false ∧ ∃ g, mkGen E.unknown ctx c = .ok g ∧ Yx E xs g

/-- How often each command occurs among the non-finite tokens. -/
def takes : List Cmd → List (Option (List Str)) → Cmd → Nat
  | c :: cs, none :: oss => bump c (takes cs oss)
  | _ :: cs, some _ :: oss => takes cs oss
  | _, _ => fun _ => 0

/-- One predicate per combination. -/
def prodZ (Q : Cmd → Nat → Str → Prop) :
    List Cmd → List (Option (List Str)) → List ((Cmd → Nat) → List Str → Prop)
  | c :: cs, none :: oss => (prodZ Q cs oss).map (nfZ (takes cs oss) c (Q c))
  | _ :: cs, some xs :: oss => xs.flatMap fun x => (prodZ Q cs oss).map (consZ x)
  | _, _ => [fun _ t => t = []]

theorem PZS.start {Q : Cmd → Nat → Str → Prop} {ctx : Ctx} {cs : List Cmd}
    {oss : List (Option (List Str))} (h : List.Forall₂ (TokAt E J Q ctx) cs oss) :
    PZS E J (takes cs oss) (prodZ Q cs oss) (.start ctx cs) := by
  induction h with
  | nil =>
    intro n coll hI w
    exact ⟨coll, [], .done, w, NextS.of_step (Ev.of fun _ => rfl), by simpa [takes] using hI, rfl,
      fun n coll hI w => ⟨coll, w, NextS.of_step (Ev.of fun _ => rfl), hI⟩⟩
  | @cons c o cs oss h1 _ ih =>
    cases o with
    | none =>
      obtain ⟨h1, h2⟩ := h1
      refine PZS.of_step fun n coll hI w => ⟨coll, _, w, hI, PZS.nf h2 ih, fun o ho => NextS.of_step ?_⟩
      refine ho.mp fun n hn => ?_
      simp only [stepS]
      rw [if_pos h1]
      exact hn
    | some xs =>
      obtain ⟨h1, g, hg, h2⟩ := h1
      refine PZS.of_step fun n coll hI w => ⟨coll, _, w, hI, PZS.fin h2 ih, fun o ho => NextS.of_step ?_⟩
      refine ho.mp fun n hn => ?_
      simp only [stepS]
      rw [if_neg (by rw [h1]; simp), M.bind_of_ok (a := g) (w' := w) (by rw [hg]; rfl)]
      exact hn

/-- The predicates of successive results, starting with `n` values taken. -/
def fromZ (d : Cmd → Nat) (sep : Str) :
    (Cmd → Nat) → List ((Cmd → Nat) → List Str → Prop) → List (Str → Prop)
  | _, [] => []
  | n, q :: qs => (fun s => ∃ t, q n t ∧ s = joined sep t) :: fromZ d sep (fun c => n c + d c) qs

theorem PZS.combSeq {d : Cmd → Nat} {n : Cmd → Nat} {sep : Str} {coll : Coll} {fr : SFrame}
    {ps : List ((Cmd → Nat) → List Str → Prop)} (hI : J n coll) (h : PZS E J d ps fr) :
    PY E (fromZ d sep n ps) (.combSeq sep coll fr) := by
  induction ps generalizing n coll fr with
  | nil =>
    intro w
    obtain ⟨coll', w', h1, -⟩ := h n coll hI w
    exact ⟨w', NextG.of_step (Ev.bind (f := fun n => _) h1 (Ev.of fun _ => rfl))⟩
  | cons p ps ih =>
    intro w
    obtain ⟨coll', t, fr', w', h1, h2, h3, h4⟩ := h n coll hI w
    exact ⟨_, _, w', NextG.of_step (Ev.bind (f := fun n => _) h1 (Ev.of fun _ => rfl)), ⟨t, h3, rfl⟩,
      ih h2 h4⟩

/-! ### The collection -/

/-- The first entry of each non-finite command is at position `n` of its stream. -/
def CollAt (E : Env W) (Q : Cmd → Nat → Str → Prop) (cs : List Cmd) (n : Cmd → Nat) (coll : Coll) :
    Prop :=
  coll.map (·.1) = cs ∧ ∀ c, c ∈ cs → c.ownNonfinite →
    ∃ e, coll.find? (fun e => e.1 = c) = some e ∧ FlowsAt E (Q c) (n c + 1) e.2.1 ∧
      ∃ v, e.2.2 = some v ∧ Q c (n c) v

theorem getValue_find {coll : Coll} {c : Cmd} {e : Cmd × Gen × Option Str}
    (h : coll.find? (fun e => e.1 = c) = some e) {w w' : W} {v' : Str} {g' : Gen}
    (hg : NextG E e.2.1 w (.ok (some (v', g')) w')) :
    ∃ coll', (Ev fun fuel => (recs E fuel).getValue c coll w = .ok (e.2.2, coll') w') ∧
      coll'.map (·.1) = coll.map (·.1) ∧ coll'.find? (fun e => e.1 = c) = some (c, g', some v') ∧
      ∀ c', c' ≠ c → coll'.find? (fun e => e.1 = c') = coll.find? (fun e => e.1 = c') := by
  induction coll with
  | nil => simp at h
  | cons a coll ih =>
    obtain ⟨c1, g1, v1⟩ := a
    by_cases hc : c1 = c
    · subst hc
      simp only [List.find?_cons, decide_true, Option.some.injEq] at h
      subst h
      refine ⟨(c1, g', some v') :: coll, ?_, rfl, by simp, ?_⟩
      · simp only [Recs.getValue, if_true]
        exact Ev.bind (f := fun n => _) hg (Ev.of fun _ => rfl)
      · intro c' hc'
        simp [List.find?_cons, Ne.symm hc']
    · simp only [List.find?_cons, hc, decide_false] at h
      obtain ⟨coll', h1, h2, h3, h4⟩ := ih h
      refine ⟨(c1, g1, v1) :: coll', ?_, by simp [h2], by simp [List.find?_cons, hc, h3], ?_⟩
      · simp only [Recs.getValue, if_neg hc]
        exact Ev.bind (f := fun n => _) h1 (Ev.of fun _ => rfl)
      · intro c' hc'
        simp only [List.find?_cons, h4 c' hc']

theorem givesAt_coll {Q : Cmd → Nat → Str → Prop} {cs : List Cmd} {c : Cmd} (hc : c ∈ cs)
    (hn : c.ownNonfinite) : GivesAt E (CollAt E Q cs) c (Q c) := by
  rintro n coll ⟨h1, h2⟩ w
  obtain ⟨e, he, hf, v, hv, hq⟩ := h2 c hc hn
  obtain ⟨v', g', w', h3, h4, h5⟩ := hf.out w
  obtain ⟨coll', h6, h7, h8, h9⟩ := getValue_find he h3
  rw [hv] at h6
  refine ⟨v, coll', w', h6, ⟨h7.trans h1, fun c' hc' hn' => ?_⟩, hq⟩
  by_cases hcc : c' = c
  · subst hcc
    refine ⟨_, h8, ?_, v', rfl, ?_⟩
    · simpa [bump] using h5
    · simpa [bump] using h4
  · obtain ⟨e', he', hf', hv'⟩ := h2 c' hc' hn'
    refine ⟨e', by rw [h9 c' hcc, he'], ?_, ?_⟩
    · simpa [bump, hcc] using hf'
    · simpa [bump, hcc] using hv'

theorem mkColl_at {Q : Cmd → Nat → Str → Prop} {ctx : Ctx} {cs : List Cmd}
    (h : ∀ c ∈ cs, ∃ g, mkGen E.unknown ctx c = .ok g ∧ (c.ownNonfinite → FlowsAt E (Q c) 0 g) ∧
      (¬ c.ownNonfinite → ∃ p ps, PY E (p :: ps) g)) (w : W) :
    ∃ coll w', (Ev fun n => (recs E n).mkColl E ctx cs w = .ok coll w') ∧
      CollAt E Q cs (fun _ => 0) coll := by
  have key : ∃ gs, mkGens E.unknown ctx cs = .ok gs ∧ ∀ w, ∃ coll w',
      (Ev fun n => (recs E n).firstValues (cs.zip gs) w = .ok coll w') ∧
      CollAt E Q cs (fun _ => 0) coll := by
    clear w
    induction cs with
    | nil => exact ⟨[], rfl, fun w => ⟨[], w, Ev.of fun _ => rfl, rfl, by simp⟩⟩
    | cons c cs ih =>
      obtain ⟨gs, hgs, ih⟩ := ih fun c hc => h c (by simp [hc])
      obtain ⟨g, hg, h1, h2⟩ := h c (by simp)
      refine ⟨g :: gs, by simp [mkGens, hg, hgs], fun w => ?_⟩
      have : ∃ v g' w1, NextG E g w (.ok (some (v, g')) w1) ∧
          (c.ownNonfinite → FlowsAt E (Q c) 1 g' ∧ Q c 0 v) := by
        by_cases hn : c.ownNonfinite
        · obtain ⟨v, g', w1, h3, h4, h5⟩ := (h1 hn).out w
          exact ⟨v, g', w1, h3, fun _ => ⟨h5, h4⟩⟩
        · obtain ⟨p, ps, h3⟩ := h2 hn
          obtain ⟨v, g', w1, h4, -⟩ := h3 w
          exact ⟨v, g', w1, h4, fun h => absurd h hn⟩
      obtain ⟨v, g', w1, h3, h4⟩ := this
      obtain ⟨coll, w2, h5, h6, h7⟩ := ih w1
      refine ⟨(c, g', some v) :: coll, w2, ?_, by simp [h6], ?_⟩
      · simp only [List.zip_cons_cons, Recs.firstValues]
        exact Ev.bind (f := fun n => _) (next!_steps h3)
          (Ev.bind (f := fun n => _) h5 (Ev.of fun _ => rfl))
      · intro c' hc' hn
        by_cases hcc : c = c'
        · subst hcc
          exact ⟨(c, g', some v), by simp, by simpa using (h4 hn).1, v, rfl, (h4 hn).2⟩
        · obtain ⟨e, he, h8⟩ := h7 c' (by
            rcases List.mem_cons.1 hc' with rfl | h
            · exact absurd rfl hcc
            · exact h) hn
          exact ⟨e, by simp [List.find?_cons, hcc, he], h8⟩
  obtain ⟨gs, hgs, key⟩ := key
  obtain ⟨coll, w', h1, h2⟩ := key w
  refine ⟨coll, w', ?_, h2⟩
  unfold Recs.mkColl
  exact Ev.bind (a := gs) (w1 := w) (f := fun n => _) (Ev.of fun _ => by rw [hgs]; rfl) h1

/-! ### The combinations -/

/-- The texts of one combination. -/
inductive RelZ (Q : Cmd → Nat → Str → Prop) (n : Cmd → Nat) :
    List Cmd → List (Option (List Str)) → List Str → List Str → Prop
  | nil : RelZ Q n [] [] [] []
  | fin {c cs xs oss x t strs} : RelZ Q n cs oss t strs →
      RelZ Q n (c :: cs) (some xs :: oss) (x :: t) (x :: strs)
  | nf {c cs oss x t strs} : Q c (n c + takes cs oss c) x → RelZ Q n cs oss t strs →
      RelZ Q n (c :: cs) (none :: oss) t (x :: strs)

theorem forall2_flatMap {α γ δ : Type} {R : γ → δ → Prop} {l : List α} {f : α → List γ}
    {g : α → List δ} (h : ∀ a ∈ l, List.Forall₂ R (f a) (g a)) :
    List.Forall₂ R (l.flatMap f) (l.flatMap g) := by
  induction l with
  | nil => exact .nil
  | cons a l ih =>
    simp only [List.flatMap_cons]
    exact List.rel_append (h a (by simp)) (ih fun a ha => h a (by simp [ha]))

theorem prodZ_rel {Q : Cmd → Nat → Str → Prop} {cs : List Cmd} {oss : List (Option (List Str))}
    (hl : cs.length = oss.length) :
    List.Forall₂ (fun t q => ∀ n strs, q n strs → RelZ Q n cs oss t strs)
      (product (oss.filterMap id)) (prodZ Q cs oss) := by
  induction cs generalizing oss with
  | nil =>
    cases oss with
    | cons => simp at hl
    | nil =>
      refine .cons ?_ .nil
      rintro n strs rfl
      exact .nil
  | cons c cs ih =>
    cases oss with
    | nil => simp at hl
    | cons o oss =>
      have ih := ih (oss := oss) (by simpa using hl)
      cases o with
      | none =>
        simp only [List.filterMap_cons, id, prodZ]
        rw [List.forall₂_map_right_iff]
        refine ih.imp ?_
        rintro t q h n _ ⟨x, strs, rfl, h1, h2⟩
        exact .nf h1 (h n strs h2)
      | some xs =>
        simp only [List.filterMap_cons, id, prodZ, product]
        refine forall2_flatMap fun x _ => ?_
        rw [List.forall₂_map_left_iff, List.forall₂_map_right_iff]
        refine ih.imp ?_
        rintro t q h n _ ⟨strs, rfl, h2⟩
        exact .fin (h n strs h2)

theorem takes_snoc {cs : List Cmd} {oss : List (Option (List Str))} (hl : cs.length = oss.length)
    (s : Cmd) (xs : List Str) : takes (cs ++ [s]) (oss ++ [some xs]) = takes cs oss := by
  induction cs generalizing oss with
  | nil => cases oss with
    | nil => rfl
    | cons => simp at hl
  | cons c cs ih => cases oss with
    | nil => simp at hl
    | cons o oss =>
      have ih := ih (oss := oss) (by simpa using hl)
      cases o with
      | none => simp only [List.cons_append, takes, ih]
      | some _ => simp only [List.cons_append, takes, ih]

theorem RelZ.snoc_inv {Q : Cmd → Nat → Str → Prop} {n : Cmd → Nat} {cs : List Cmd}
    {oss : List (Option (List Str))} (hl : cs.length = oss.length) {s : Cmd} {xs t strs : List Str}
    {y : Str} (h : RelZ Q n (cs ++ [s]) (oss ++ [some xs]) (t ++ [y]) strs) :
    ∃ strs', strs = strs' ++ [y] ∧ RelZ Q n cs oss t strs' := by
  induction cs generalizing oss t strs with
  | nil =>
    cases oss with
    | cons => simp at hl
    | nil =>
      cases t with
      | nil => cases h with | fin h => cases h; exact ⟨[], rfl, .nil⟩
      | cons a t =>
        simp only [List.cons_append] at h
        cases h with | fin h => exact absurd h (by
          intro h
          generalize ht : t ++ [y] = t' at h
          cases h
          simp at ht)
  | cons c cs ih =>
    cases oss with
    | nil => simp at hl
    | cons o oss =>
      have hl' : cs.length = oss.length := by simpa using hl
      cases o with
      | none =>
        simp only [List.cons_append] at h
        cases h with | nf h1 h2 =>
        obtain ⟨strs', rfl, h3⟩ := ih hl' h2
        rw [takes_snoc hl'] at h1
        exact ⟨_, rfl, .nf h1 h3⟩
      | some ys =>
        simp only [List.cons_append] at h
        cases t with
        | nil =>
          cases h with | fin h =>
          exfalso
          generalize hc : cs ++ [s] = cs' at h
          generalize ho : oss ++ [some xs] = oss' at h
          clear ih hl
          generalize ht : ([] : List Str) = t at h
          induction h generalizing cs oss with
          | nil => simp at hc
          | fin => simp at ht
          | nf _ _ ih =>
            cases oss with
            | nil => simp at ho
            | cons o oss =>
              cases cs with
              | nil => simp at hl'
              | cons c cs =>
                simp only [List.cons_append, List.cons.injEq] at hc ho
                exact ih _ _ (by simpa using hl') hc.2 ho.2 ht
        | cons a t =>
          simp only [List.cons_append] at h
          cases h with | fin h =>
          obtain ⟨strs', rfl, h3⟩ := ih hl' h
          exact ⟨_, rfl, .fin h3⟩

theorem takes_count {o : Cmd → Option (List Str)} {cs : List Cmd} {c : Cmd} (h : o c = none) :
    takes cs (cs.map o) c = cs.count c := by
  induction cs with
  | nil => rfl
  | cons c' cs ih =>
    cases ho : o c' with
    | none =>
      simp only [List.map_cons, ho, takes, bump, ih, List.count_cons]
      by_cases hc : c = c'
      · simp [hc]
      · simp [hc, Ne.symm hc]
    | some xs =>
      have : c' ≠ c := by rintro rfl; rw [h] at ho; cases ho
      simp only [List.map_cons, ho, takes, ih, List.count_cons]
      simp [this]

theorem forall2_fromZ {d : Cmd → Nat} {sep : Str} {n : Cmd → Nat}
    {ts : List (List Str)} {qs : List ((Cmd → Nat) → List Str → Prop)}
    {R : (Cmd → Nat) → List Str → List Str → Prop} {outs : List Str}
    (h : List.Forall₂ (fun t q => ∀ n strs, q n strs → R n t strs) ts qs)
    (ho : List.Forall₂ (fun (p : Str → Prop) s => p s) (fromZ d sep n qs) outs) :
    outs.length = ts.length ∧ ∀ i t s, ts[i]? = some t → outs[i]? = some s →
      ∃ strs, R (fun c => n c + i * d c) t strs ∧ s = joined sep strs := by
  induction h generalizing n outs with
  | nil => cases ho; simp
  | cons h1 _ ih =>
    cases ho with
    | cons h2 h3 =>
      obtain ⟨h4, h5⟩ := ih h3
      refine ⟨by simp [h4], fun i t s hi hs => ?_⟩
      cases i with
      | zero =>
        simp only [List.getElem?_cons_zero, Option.some.injEq] at hi hs
        subst hi hs
        obtain ⟨strs, h6, h7⟩ := h2
        exact ⟨strs, by simpa using h1 _ _ h6, h7⟩
      | succ i =>
        obtain ⟨strs, h6, h7⟩ := h5 i t s (by simpa using hi) (by simpa using hs)
        refine ⟨strs, ?_, h7⟩
        have : (fun c => n c + (i + 1) * d c) = fun c => n c + d c + i * d c := by
          funext c; rw [Nat.succ_mul]; omega
        rw [this]; exact h6

end Verif
