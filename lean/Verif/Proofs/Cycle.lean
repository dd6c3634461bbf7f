import Verif.Proofs.Live
import Verif.Proofs.Comb
import Verif.Spec.Cycle
/-! Cyclical generators produce the closed form. -/

namespace Verif
open Spec Props
variable {W : Type} {E : Env W}

/-- `st` are the states of a generator whose `i`-th text is `f i`, in every world. -/
def Steps (E : Env W) (st : Nat → Gen) (f : Nat → Str) : Prop :=
  ∀ i w, ∃ w', NextG E (st i) w (.ok (some (f i, st (i + 1))) w')

/-- The generator's `i`-th text is `f i`, in every world. -/
def Streams (E : Env W) (g : Gen) (f : Nat → Str) : Prop := ∃ st, st 0 = g ∧ Steps E st f

def StepsA (E : Env W) (st : Nat → Arr) (f : Nat → List Str) : Prop :=
  ∀ i w, ∃ w', NextA E (st i) w (.ok (some (f i, st (i + 1))) w')

def StreamsA (E : Env W) (a : Arr) (f : Nat → List Str) : Prop := ∃ st, st 0 = a ∧ StepsA E st f

theorem Steps.collect {st : Nat → Gen} {f : Nat → Str} (h : Steps E st f) (i k : Nat) (w : W) :
    Ev fun n => (collect E n k (st i) w).1 = (List.range k).map (fun j => f (i + j)) ∧
      ∃ w', (collect E n k (st i) w).2 = .limit (st (i + k)) w' := by
  induction k generalizing i w with
  | zero => exact Ev.of fun n => ⟨rfl, w, rfl⟩
  | succ k ih =>
    obtain ⟨w', h1⟩ := h i w
    refine (Ev.and h1 (ih (i + 1) w')).mp fun n ⟨h1, h2⟩ => ?_
    simp only [Verif.collect, nextG, h1]
    refine ⟨?_, by rw [show i + (k + 1) = i + 1 + k by omega]; exact h2.2⟩
    rw [List.range_succ_eq_map, List.map_cons, List.map_map, h2.1]
    congr 1
    apply List.map_congr_left
    intro j _
    simp only [Function.comp_apply]
    rw [show i + (j + 1) = i + 1 + j by omega]

/-- It is enough to stream after the first step. -/
theorem Streams.of_next {g : Gen} {f : Nat → Str} {st : Nat → Gen}
    (h0 : ∀ w, ∃ w', NextG E g w (.ok (some (f 0, st 1)) w')) (h : Steps E st f) : Streams E g f := by
  refine ⟨fun i => match i with | 0 => g | i + 1 => st (i + 1), rfl, ?_⟩
  intro i w
  cases i with
  | zero => exact h0 w
  | succ i => exact h (i + 1) w

theorem StreamsA.of_next {g : Arr} {f : Nat → List Str} {st : Nat → Arr}
    (h0 : ∀ w, ∃ w', NextA E g w (.ok (some (f 0, st 1)) w')) (h : StepsA E st f) :
    StreamsA E g f := by
  refine ⟨fun i => match i with | 0 => g | i + 1 => st (i + 1), rfl, ?_⟩
  intro i w
  cases i with
  | zero => exact h0 w
  | succ i => exact h (i + 1) w

theorem steps_rep (s : Str) : Steps E (fun _ => .rep s) (fun _ => s) :=
  fun _ w => ⟨w, NextG.of_step (Ev.of fun _ => rfl)⟩

theorem Streams.squash {g : Gen} {f : Nat → Str} (h : Streams E g f) :
    Streams E (.squash g) (fun k => squashWhitespace (f k)) := by
  obtain ⟨st, rfl, h⟩ := h
  refine ⟨fun i => .squash (st i), rfl, fun i w => ?_⟩
  obtain ⟨w', h1⟩ := h i w
  exact ⟨w', NextG.of_step (Ev.bind (f := fun n => _) h1 (Ev.of fun _ => rfl))⟩

theorem next!_steps {g g' : Gen} {v : Str} {w w' : W} (h : NextG E g w (.ok (some (v, g')) w')) :
    Ev fun n => (recs E n).next! g w = .ok (v, g') w' :=
  Ev.bind (f := fun _ _ => _) h (Ev.of fun _ => rfl)

/-- Streams of a list of generators. -/
inductive StreamsL (E : Env W) : List Gen → List (Nat → Str) → Prop
  | nil : StreamsL E [] []
  | cons {g gs f fs} : Streams E g f → StreamsL E gs fs → StreamsL E (g :: gs) (f :: fs)

theorem StreamsL.states {gs : List Gen} {fs : List (Nat → Str)} (h : StreamsL E gs fs) :
    ∃ sts : List (Nat → Gen), sts.map (· 0) = gs ∧ ∀ i w, ∃ w', Ev fun n =>
      (recs E n).rotate (sts.map (· i)) w = .ok (fs.map (· i), sts.map (· (i + 1))) w' := by
  induction h with
  | nil => exact ⟨[], rfl, fun i w => ⟨w, Ev.of fun _ => rfl⟩⟩
  | cons h _ ih =>
    obtain ⟨st, rfl, h⟩ := h
    obtain ⟨sts, rfl, ih⟩ := ih
    refine ⟨st :: sts, rfl, fun i w => ?_⟩
    obtain ⟨w1, h1⟩ := h i w
    obtain ⟨w2, h2⟩ := ih i w1
    exact ⟨w2, Ev.bind (f := fun n => _) (next!_steps h1)
      (Ev.bind (f := fun _ _ => _) h2 (Ev.of fun _ => rfl))⟩

theorem streams_seqNF {sep : Str} {gs : List Gen} {fs : List (Nat → Str)} (h : StreamsL E gs fs) :
    Streams E (.seqNF sep gs) (fun k => joined sep (fs.map (· k))) := by
  obtain ⟨sts, rfl, h'⟩ := h.states
  refine ⟨fun i => .seqNF sep (sts.map (· i)), rfl, fun i w => ?_⟩
  obtain ⟨w', h1⟩ := h' i w
  exact ⟨w', NextG.of_step (Ev.bind (f := fun _ _ => _) h1 (Ev.of fun _ => rfl))⟩

/-! ### Going round a queue -/

/-- The queue before round-robin step `i`. -/
def queue {α : Type} (n : Nat) (F : Nat → Nat → α) (i : Nat) : List α :=
  (List.range n).map fun t => roundRobin n F (i + t)

theorem queue_zero {α : Type} (n : Nat) (F : Nat → Nat → α) :
    queue n F 0 = (List.range n).map (fun t => F t 0) := by
  unfold queue
  apply List.map_congr_left
  intro t ht
  have ht := List.mem_range.1 ht
  simp [roundRobin, Nat.mod_eq_of_lt ht, Nat.div_eq_of_lt ht]

theorem queue_cons {α : Type} {n : Nat} (hn : 0 < n) (F : Nat → Nat → α) (i : Nat) :
    ∃ q, queue n F i = F (i % n) (i / n) :: q ∧ queue n F (i + 1) = q ++ [F (i % n) (i / n + 1)] := by
  obtain ⟨m, rfl⟩ : ∃ m, n = m + 1 := ⟨n - 1, by omega⟩
  refine ⟨(List.range m).map fun t => roundRobin (m + 1) F (i + 1 + t), ?_, ?_⟩
  · unfold queue
    rw [List.range_succ_eq_map, List.map_cons, List.map_map]
    congr 1
    apply List.map_congr_left
    intro t _
    simp only [Function.comp_apply]
    rw [show i + (t + 1) = i + 1 + t by omega]
  · unfold queue
    rw [List.range_succ, List.map_append]
    simp only [List.map_cons, List.map_nil]
    rw [show i + 1 + m = i + (m + 1) by omega]
    simp only [roundRobin]
    rw [Nat.add_mod_right, Nat.add_div_right _ (by omega)]

theorem streams_cycWild {n : Nat} (hn : 0 < n) {F : Nat → Nat → Gen} {f : Nat → Nat → Str}
    (h : ∀ i < n, Steps E (F i) (f i)) :
    Streams E (.cycWild ((List.range n).map fun t => F t 0)) (roundRobin n f) := by
  refine ⟨fun i => .cycWild (queue n F i), by dsimp only; rw [queue_zero], fun i w => ?_⟩
  obtain ⟨q, h1, h2⟩ := queue_cons hn F i
  obtain ⟨w', h3⟩ := h (i % n) (Nat.mod_lt _ hn) (i / n) w
  refine ⟨w', ?_⟩
  dsimp only
  rw [h1, h2]
  exact NextG.of_step (Ev.bind (f := fun n => _) (next!_steps h3) (Ev.of fun _ => rfl))

theorem streams_cycVar {sep : Str} {n : Nat} (hn : 0 < n) {F : Nat → Nat → Arr}
    {f : Nat → Nat → List Str} (h : ∀ i < n, StepsA E (F i) (f i)) :
    Streams E (.cycVar sep ((List.range n).map fun t => F t 0))
      (roundRobin n fun i j => joined sep (f i j)) := by
  refine ⟨fun i => .cycVar sep (queue n F i), by dsimp only; rw [queue_zero], fun i w => ?_⟩
  obtain ⟨q, h1, h2⟩ := queue_cons hn F i
  obtain ⟨w', h3⟩ := h (i % n) (Nat.mod_lt _ hn) (i / n) w
  refine ⟨w', ?_⟩
  dsimp only
  rw [h1, h2]
  exact NextG.of_step (Ev.bind (f := fun n => _) h3 (Ev.of fun _ => rfl))

theorem streamsA_start {ctx : Ctx} {f : Cmd → Nat → Str} {combo : List Cmd}
    (h : ∀ c ∈ combo, ∃ g, mkGen E.unknown ctx c = .ok g ∧ Streams E g (f c)) :
    StreamsA E (.start ctx combo) (fun k => combo.map fun c => f c k) := by
  induction combo with
  | nil =>
    refine StreamsA.of_next (st := fun _ => .nil) ?_ ?_
    · exact fun w => ⟨w, NextA.of_step (Ev.of fun _ => rfl)⟩
    · exact fun i w => ⟨w, NextA.of_step (Ev.of fun _ => rfl)⟩
  | cons c cs ih =>
    obtain ⟨g, hg, st, rfl, h1⟩ := h c (by simp)
    obtain ⟨sa, hsa, h2⟩ := ih fun c hc => h c (by simp [hc])
    have h3 : StepsA E (fun i => .node (st i) (sa i)) (fun k => (c :: cs).map fun c => f c k) := by
      intro i w
      obtain ⟨w1, h4⟩ := h2 i w
      obtain ⟨w2, h5⟩ := h1 i w1
      exact ⟨w2, NextA.of_step (Ev.bind (f := fun n => _) h4
        (Ev.bind (f := fun _ _ => _) h5 (Ev.of fun _ => rfl)))⟩
    refine StreamsA.of_next (st := fun i => .node (st i) (sa i)) ?_ h3
    intro w
    obtain ⟨w', h4⟩ := h3 0 w
    refine ⟨w', NextA.of_step ?_⟩
    refine Ev.bind (a := st 0) (w1 := w) (f := fun n => _) (Ev.of fun n => ?_) ?_
    · rw [hg]; rfl
    · rw [← hsa]; exact h4

theorem streams_variant {ctx : Ctx} {sep : Str} {f : Cmd → Nat → Str} {sels : List (List Cmd)}
    (hne : sels ≠ []) (h : ∀ sel ∈ sels, ∀ c ∈ sel, ∃ g, mkGen E.unknown ctx c = .ok g ∧
      Streams E g (f c)) :
    Streams E (.cycVar sep (sels.map (Arr.start ctx)))
      (roundRobin sels.length fun i j => joined sep ((sels.getD i []).map fun c => f c j)) := by
  have hA : ∀ i, ∃ st : Nat → Arr, i < sels.length → st 0 = .start ctx (sels.getD i []) ∧
      StepsA E st (fun j => (sels.getD i []).map fun c => f c j) := by
    intro i
    by_cases hi : i < sels.length
    · obtain ⟨st, h1, h2⟩ := streamsA_start (E := E) (ctx := ctx) (f := f) (combo := sels.getD i [])
        (h _ (by simp [List.getD_eq_getElem?_getD, List.getElem?_eq_getElem hi]))
      exact ⟨st, fun _ => ⟨h1, h2⟩⟩
    · exact ⟨fun _ => .nil, fun h => absurd h hi⟩
  choose F hF using hA
  have := streams_cycVar (sep := sep) (List.length_pos_iff.2 hne) (F := F)
    (f := fun i j => (sels.getD i []).map fun c => f c j) (fun i hi => (hF i hi).2)
  have he : (List.range sels.length).map (fun t => F t 0) = sels.map (Arr.start ctx) := by
    apply List.ext_getElem
    · simp
    · intro i h1 h2
      have h3 : i < sels.length := by simpa using h1
      simp [(hF i h3).1, List.getD_eq_getElem?_getD, List.getElem?_eq_getElem h3]
  rw [he] at this
  exact this

theorem sampleGens_streams {ctx : Ctx} {f : Str → Nat → Str} {l : List Str} (hne : l ≠ [])
    (h : ∀ x ∈ l, ∃ g, sampleGen E ctx (.inl x) = .ok g ∧ Streams E g (f x)) :
    ∃ gs, sampleGens E ctx l = .ok gs ∧
      Streams E (.cycWild gs) (roundRobin l.length fun i j => f (l.getD i []) j) := by
  have h1 : ∀ i, ∃ st : Nat → Gen, i < l.length → sampleGen E ctx (.inl (l.getD i [])) = .ok (st 0) ∧
      Steps E st (f (l.getD i [])) := by
    intro i
    by_cases hi : i < l.length
    · obtain ⟨g, hg, st, rfl, hs⟩ := h (l.getD i [])
        (by simp [List.getD_eq_getElem?_getD, List.getElem?_eq_getElem hi])
      exact ⟨st, fun _ => ⟨hg, hs⟩⟩
    · exact ⟨fun _ => .done, fun h => absurd h hi⟩
  choose F hF using h1
  have hg : sampleGens E ctx l = .ok ((List.range l.length).map fun t => F t 0) := by
    have : ∀ (l : List Str) (G : Nat → Gen),
        (∀ i < l.length, sampleGen E ctx (.inl (l.getD i [])) = .ok (G i)) →
        sampleGens E ctx l = .ok ((List.range l.length).map G) := by
      intro l
      induction l with
      | nil => intro G _; rfl
      | cons x l ih =>
        intro G hG
        have h0 := hG 0 (by simp)
        simp only [List.getD_cons_zero] at h0
        have := ih (fun i => G (i + 1)) (fun i hi => by
          have := hG (i + 1) (by simpa using hi)
          simpa using this)
        simp only [sampleGens, h0, this, List.length_cons]
        rw [List.range_succ_eq_map, List.map_cons, List.map_map]
        rfl
    exact this l _ (fun i hi => (hF i hi).1)
  exact ⟨_, hg, streams_cycWild (List.length_pos_iff.2 hne) (fun i hi => (hF i hi).2)⟩

/-! ### Starting -/

theorem streams_start {ctx : Ctx} {c : Cmd} {f : Nat → Str} {g : Gen} (hc : ∀ s m, c ≠ .lit s m)
    (h : ∀ w, ∃ w', Ev fun n => startG E (recs E n) ctx c w = .ok g w') (hg : Streams E g f) :
    Streams E (.start ctx c) f := by
  obtain ⟨st, rfl, hs⟩ := hg
  refine Streams.of_next (st := st) (fun w => ?_) hs
  obtain ⟨w1, h1⟩ := h w
  obtain ⟨w2, h2⟩ := hs 0 w1
  refine ⟨w2, NextG.of_step ?_⟩
  have : ∀ n, stepG E (recs E n) (.start ctx c) =
      (startG E (recs E n) ctx c >>= fun g => (recs E n).G g) := by
    intro n
    cases c with
    | lit s m => exact absurd rfl (hc s m)
    | _ => rfl
  simp only [this]
  exact Ev.bind (f := fun n => _) h1 h2

theorem mkGen_streams_of_start {vars : List (Str × Cmd)} {being : List Str} {c : Cmd} {f : Nat → Str}
    (hc : ∀ n d, c ≠ .access n d) (ha : ∀ n v i o, c ≠ .assign n v i o)
    (hw : ∀ a b m, c ≠ .wrap a b m) (hm : c.method ≠ some .random)
    (h : Streams E (.start ⟨.cyc, vars, being⟩ c) f) :
    ∃ g, mkGen E.unknown ⟨.cyc, vars, being⟩ c = .ok g ∧ Streams E g f := by
  refine ⟨_, ?_, h⟩
  have hn : nest .cyc c.method = .cyc := by
    cases hcm : c.method with
    | none => rfl
    | some m =>
      cases m with
      | random => exact absurd hcm hm
      | _ => rfl
  rw [mkGen_outcome (.target hc)]
  cases c with
  | assign n v i o => exact absurd rfl (ha n v i o)
  | wrap a b m => exact absurd rfl (hw a b m)
  | access n d => exact absurd rfl (hc n d)
  | _ => simp only [outcomeGen, effMethod_eq_nest, hn]

theorem sampleFirst_streams {ctx : Ctx} {p : Prompt} {f : Nat → Str}
    (h : ∃ g, sampleGen E ctx p = .ok g ∧ Streams E g f) (w : W) :
    ∃ w', Ev fun n => (recs E n).sampleFirst E ctx p w = .ok (f 0) w' := by
  obtain ⟨g, hg, st, rfl, hs⟩ := h
  obtain ⟨w1, h1⟩ := hs 0 w
  refine ⟨w1, ?_⟩
  unfold Recs.sampleFirst
  refine Ev.bind (a := st 0) (w1 := w) (f := fun n => _) (Ev.of fun _ => by rw [hg]; rfl) ?_
  exact Ev.bind (f := fun n => _) (next!_steps h1) (Ev.of fun _ => rfl)

/-- The samplers do not look at the method of the variant they are given. -/
theorem Streams.variant_method {ctx : Ctx} {opts : List (Cmd × Rat)} {lo hi : Int} {sep : Str}
    {m : Option Method} {f : Nat → Str} (h : Streams E (.start ctx (.variant opts lo hi sep m)) f)
    (m' : Option Method) : Streams E (.start ctx (.variant opts lo hi sep m')) f := by
  obtain ⟨st, h0, h⟩ := h
  refine Streams.of_next (st := st) (fun w => ?_) h
  obtain ⟨w', h1⟩ := h 0 w
  rw [h0] at h1
  obtain ⟨N, h1⟩ := h1
  refine ⟨w', N + 1, fun n hn => ?_⟩
  obtain ⟨n, rfl⟩ : ∃ k, n = k + 1 := ⟨n - 1, by omega⟩
  exact h1 (n + 1) (by omega)

mutual
theorem cycles_streams {vars : List (Str × Cmd)} {being : List Str} {c : Cmd} {f : Nat → Str}
    (h : Cycles E vars being c f) :
    ∃ g, mkGen E.unknown ⟨.cyc, vars, being⟩ c = .ok g ∧ Streams E g f := by
  match h with
  | .lit (s := s) hm =>
    refine mkGen_streams_of_start (by simp) (by simp) (by simp) hm ?_
    exact Streams.of_next (st := fun _ => .rep s)
      (fun w => ⟨w, NextG.of_step (Ev.of fun _ => rfl)⟩) (steps_rep s)
  | .seq (sep := sep) (toks' := toks') (new := new) hm hA hall =>
    refine mkGen_streams_of_start (by simp) (by simp) (by simp) hm ?_
    have h1 := cyclesAssigned_streams hA
    obtain ⟨gs, hgs, hs⟩ := cyclesAll_streams hall
    refine streams_start (by simp) (g := .seqNF sep gs) (fun w => ?_) (streams_seqNF hs)
    obtain ⟨w1, h2⟩ := h1 w
    refine ⟨w1, Ev.bind (f := fun n => _) h2 (Ev.of fun n => ?_)⟩
    have hgs' : mkGens E.unknown (Ctx.withVars ⟨.cyc, vars, being⟩ new) toks' = .ok gs := hgs
    dsimp only
    rw [hgs']; rfl
  | .variant (opts := opts) (lo := lo) (hi := hi) (sep := sep) f hm hs hsel hne hopts =>
    refine mkGen_streams_of_start (by simp) (by simp) (by simp) hm ?_
    have hopts' : ∀ p ∈ opts, ∃ g, mkGen E.unknown ⟨.cyc, vars, being⟩ p.1 = .ok g ∧
        Streams E g (f p.1) := fun p hp => cycles_streams (hopts p hp)
    have hflat : (boundCombos (opts.map (·.1)) (adjustBounds opts.length lo hi).1
        (adjustBounds opts.length lo hi).2).map (fun p => Arr.start ⟨.cyc, vars, being⟩ p.2) =
        (variantSelections opts lo hi).map (Arr.start ⟨.cyc, vars, being⟩) := by
      rw [boundCombos_flat]
      simp [variantSelections, List.map_flatMap, Function.comp_def]
    refine streams_start (by simp) (g := .cycVar sep ((variantSelections opts lo hi).map
      (Arr.start ⟨.cyc, vars, being⟩))) (fun w => ⟨w, Ev.of fun n => ?_⟩) (streams_variant hsel ?_)
    · rw [← hflat]
      match opts, hne, hs with
      | [(c, wt)], _, hs =>
        cases c with
        | wild p m v => exact absurd ⟨p, m, v, wt, rfl⟩ hs
        | _ => rfl
      | (a, _) :: b :: l, _, _ => cases a <;> rfl
    · intro sel hmem c hc
      obtain ⟨k, -, hk⟩ := List.mem_flatMap.1 hmem
      rw [← getCombos_eq_selections] at hk
      obtain ⟨p, hp, rfl⟩ := List.mem_map.1 ((mem_getCombos.1 hk).2.2 c hc)
      exact hopts' p hp
  | .variantWild (path := path) (m' := m') (lo := lo) (hi := hi) (sep := sep) (items := items)
      (cs := cs) hm hpath hans hparse hvar =>
    refine mkGen_streams_of_start (by simp) (by simp) (by simp) hm ?_
    have hp := cyclesPrompt_streams hpath
    obtain ⟨g, hg, hst⟩ := cycles_streams hvar
    have hg' : g = .start ⟨.cyc, vars, being⟩ (Cmd.mkVariant (cs.map (fun c => (c, 1)))
        (min lo items.length) (min hi items.length) sep none) := by
      rw [mkGen_outcome (.target (by simp [Cmd.mkVariant]))] at hg
      simp only [outcomeGen, Cmd.mkVariant] at hg
      cases hg
      rfl
    subst hg'
    refine streams_start (by simp) (fun w => ?_) (hst.variant_method m')
    obtain ⟨w1, h1⟩ := sampleFirst_streams hp w
    obtain ⟨w2, h2⟩ := hans w1
    refine ⟨w2, ?_⟩
    refine Ev.bind (w1 := w2) (f := fun n => _) ?_ (Ev.of fun n => rfl)
    refine Ev.bind (f := fun n => _) h1 (Ev.of fun n => ?_)
    rw [M.bind_of_ok h2, mapM_of_parses hparse]
    rfl
  | .wild (path := path) (v := v) (items := items) f hm hpath hans hne hne' hvals =>
    refine mkGen_streams_of_start (by simp) (by simp) (by simp) hm ?_
    have hp := cyclesPrompt_streams hpath
    have hvals' : ∀ x ∈ iterateWeighted items, ∃ g,
        sampleGen E ⟨.cyc, v ++ vars, being⟩ (.inl x) = .ok g ∧ Streams E g (f x) :=
      fun x hx => cyclesPrompt_streams (hvals x hx)
    obtain ⟨gs, hgs, hs⟩ := sampleGens_streams hne' hvals'
    refine streams_start (by simp) (g := .cycWild gs) (fun w => ?_) hs
    obtain ⟨w1, h1⟩ := sampleFirst_streams hp w
    obtain ⟨w2, h2⟩ := hans w1
    refine ⟨w2, Ev.bind (f := fun n => _) h1 (Ev.bind (f := fun n => _) (Ev.of fun _ => h2)
      (Ev.of fun _ => ?_))⟩
    have hie : items.isEmpty = false := by simpa using hne
    dsimp only
    rw [hie]
    simp only [Bool.false_eq_true, if_false, Ctx.withVars]
    rw [hgs]
    rfl
  | .wildMissing (s := s) hm hpath hans =>
    refine mkGen_streams_of_start (by simp) (by simp) (by simp) hm ?_
    have hp := cyclesPrompt_streams hpath
    refine streams_start (by simp) (g := .rep (E.toWildcard s)) (fun w => ?_) ⟨_, rfl, steps_rep _⟩
    obtain ⟨w1, h1⟩ := sampleFirst_streams hp w
    obtain ⟨w2, h2⟩ := hans w1
    exact ⟨w2, Ev.bind (f := fun n => _) h1 (Ev.bind (f := fun n => _) (Ev.of fun _ => h2)
      (Ev.of fun _ => rfl))⟩
  | .access hr hb h' =>
    obtain ⟨g, hg, hl⟩ := cycles_streams h'
    refine ⟨g, ?_, hl⟩
    obtain ⟨o, ho⟩ := chain_total E.unknown vars (_ :: being) _
    rw [mkGen_outcome (ctx := ⟨.cyc, vars, being⟩) (.step hr hb ho), ← hg,
      mkGen_outcome (ctx := ⟨.cyc, vars, _ :: being⟩) ho]
    cases o <;> rfl
theorem cyclesAll_streams {vars : List (Str × Cmd)} {being : List Str} {cs : List Cmd}
    {fs : List (Nat → Str)} (h : CyclesAll E vars being cs fs) :
    ∃ gs, mkGens E.unknown ⟨.cyc, vars, being⟩ cs = .ok gs ∧ StreamsL E gs fs := by
  match h with
  | .nil => exact ⟨[], rfl, .nil⟩
  | .cons h1 h2 =>
    obtain ⟨g, hg, hs⟩ := cycles_streams h1
    obtain ⟨gs, hgs, hss⟩ := cyclesAll_streams h2
    exact ⟨g :: gs, by simp [mkGens, hg, hgs], .cons hs hss⟩
theorem cyclesPrompt_streams {vars : List (Str × Cmd)} {being : List Str} {p : Prompt}
    {f : Nat → Str} (h : CyclesPrompt E vars being p f) :
    ∃ g, sampleGen E ⟨.cyc, vars, being⟩ p = .ok g ∧ Streams E g f := by
  match h with
  | .text hne hp hc =>
    obtain ⟨g, hg, hl⟩ := cycles_streams hc
    refine ⟨if E.ignoreWs then .squash g else g, ?_, ?_⟩
    · rename_i s c f
      cases s with
      | nil => exact absurd rfl hne
      | cons a s => simp [sampleGen, hp, hg]
    · cases hw : E.ignoreWs
      · exact hl
      · exact hl.squash
  | .cmd ht hc =>
    obtain ⟨g, hg, hl⟩ := cycles_streams hc
    refine ⟨if E.ignoreWs then .squash g else g, ?_, ?_⟩
    · simp [sampleGen, ht, hg]
    · cases hw : E.ignoreWs
      · exact hl
      · exact hl.squash
theorem cyclesAssigned_streams {vars : List (Str × Cmd)} {being : List Str} {toks toks' : List Cmd}
    {new : List (Str × Cmd)} (h : CyclesAssigned E vars being toks toks' new) (w : W) :
    ∃ w', Ev fun n => (recs E n).assigns E ⟨.cyc, vars, being⟩ toks w = .ok (toks', new) w' := by
  match h with
  | .nil => exact ⟨w, Ev.of fun _ => rfl⟩
  | .tok (c := c) hc h' =>
    obtain ⟨w1, h1⟩ := cyclesAssigned_streams h' w
    refine ⟨w1, ?_⟩
    cases c with
    | assign n v i o => exact absurd rfl (hc n v i o)
    | _ => exact Ev.bind (f := fun n => _) h1 (Ev.of fun _ => rfl)
  | .keep (n := name) (v := v) (i := i) (c := c) hl h' =>
    obtain ⟨w1, h1⟩ := cyclesAssigned_streams h' w
    refine ⟨w1, ?_⟩
    refine Ev.bind (f := fun n => _) (a := c) (w1 := w) (Ev.of fun n => ?_)
      (Ev.bind (f := fun n => _) h1 (Ev.of fun _ => rfl))
    simp [Recs.assign, hl]
  | .plain (n := name) (v := v) (o := o) ho h' =>
    obtain ⟨w1, h1⟩ := cyclesAssigned_streams h' w
    refine ⟨w1, ?_⟩
    refine Ev.bind (f := fun n => _) (a := v) (w1 := w) (Ev.of fun n => ?_)
      (Ev.bind (f := fun n => _) h1 (Ev.of fun _ => rfl))
    have : (if o = true then none else vars.lookup name) = none := by
      rcases ho with rfl | ho
      · rfl
      · simp [ho]
    simp [Recs.assign, this]
  | .literal (n := name) (s := s) (m := m) (o := o) ho h' =>
    obtain ⟨w1, h1⟩ := cyclesAssigned_streams h' w
    refine ⟨w1, ?_⟩
    refine Ev.bind (f := fun n => _) (a := .lit s m) (w1 := w) (Ev.of fun n => ?_)
      (Ev.bind (f := fun n => _) h1 (Ev.of fun _ => rfl))
    have : (if o = true then none else vars.lookup name) = none := by
      rcases ho with rfl | ho
      · rfl
      · simp [ho]
    simp [Recs.assign, this]
  | .immediate (n := name) (v := v) (o := o) (f := f) ho hv hc h' =>
    obtain ⟨g, hg, st, rfl, hs⟩ := cycles_streams hc
    obtain ⟨w1, h1⟩ := hs 0 w
    obtain ⟨w2, h2⟩ := cyclesAssigned_streams h' w1
    refine ⟨w2, ?_⟩
    have : (if o = true then none else vars.lookup name) = none := by
      rcases ho with rfl | ho
      · rfl
      · simp [ho]
    have key : Ev fun n => (do
        let g ← M.lift (mkGen E.unknown ⟨.cyc, vars, being⟩ v)
        let (v, _) ← (recs E n).next! g
        return Cmd.lit v none : M W Cmd) w = .ok (.lit (f 0) none) w1 := by
      refine Ev.bind (a := st 0) (w1 := w) (f := fun n => _) (Ev.of fun _ => by rw [hg]; rfl) ?_
      exact Ev.bind (f := fun n => _) (next!_steps h1) (Ev.of fun _ => rfl)
    refine Ev.bind (f := fun n => _) (a := .lit (f 0) none) (w1 := w1) ?_
      (Ev.bind (f := fun n => _) h2 (Ev.of fun _ => rfl))
    unfold Recs.assign
    simp only [this, if_true]
    cases v with
    | lit s m => exact absurd rfl (hv s m)
    | _ => exact key
end

end Verif
