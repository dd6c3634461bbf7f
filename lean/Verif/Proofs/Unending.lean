import Verif.Proofs.Mixed
import Verif.Spec.Unending
/-! Combinatorial generators without end. -/

namespace Verif
open Spec Props
variable {W : Type} {E : Env W}

/-- In every world, `g` yields (at least) one text per predicate. -/
def PN (E : Env W) : List (Str → Prop) → Gen → Prop
  | [], _ => True
  | p :: ps, g => ∀ w, ∃ v g' w', NextG E g w (.ok (some (v, g')) w') ∧ p v ∧ PN E ps g'

/-- The same for `get_sequence`, whatever is in its collection. -/
def PNS (E : Env W) : List (List Str → Prop) → SFrame → Prop
  | [], _ => True
  | p :: ps, fr => ∀ coll w, ∃ coll' v fr' w', NextS E coll fr w (.ok (coll', some (v, fr')) w') ∧ p v ∧ PNS E ps fr'

theorem PN.of_step {ps : List (Str → Prop)} {g : Gen}
    (h : ∀ w, ∃ g' w', PN E ps g' ∧ ∀ o, NextG E g' w' o → NextG E g w o) : PN E ps g := by
  cases ps with
  | nil => trivial
  | cons p ps =>
    intro w
    obtain ⟨g', w', h1, h2⟩ := h w
    obtain ⟨v, g1, w2, h3, h4⟩ := h1 w'
    exact ⟨v, g1, w2, h2 _ h3, h4⟩

theorem PNS.of_step {ps : List (List Str → Prop)} {fr : SFrame}
    (h : ∀ coll w, ∃ coll' fr' w', PNS E ps fr' ∧ ∀ o, NextS E coll' fr' w' o → NextS E coll fr w o) : PNS E ps fr := by
  cases ps with
  | nil => trivial
  | cons p ps =>
    intro coll w
    obtain ⟨coll', fr', w', h1, h2⟩ := h coll w
    obtain ⟨coll2, v, fr2, w2, h3, h4⟩ := h1 coll' w'
    exact ⟨coll2, v, fr2, w2, h2 _ h3, h4⟩

theorem PN.mono {ps qs : List (Str → Prop)} {g : Gen} (h : PN E ps g)
    (hpq : List.Forall₂ (fun p q => ∀ s, p s → q s) ps qs) : PN E qs g := by
  induction hpq generalizing g with
  | nil => exact h
  | cons h1 _ ih =>
    intro w
    obtain ⟨v, g', w', h2, h3, h4⟩ := h w
    exact ⟨v, g', w', h2, h1 _ h3, ih h4⟩

theorem PN.take {ps qs : List (Str → Prop)} {g : Gen} (h : PN E (ps ++ qs) g) : PN E ps g := by
  induction ps generalizing g with
  | nil => trivial
  | cons p ps ih =>
    intro w
    obtain ⟨v, g', w', h2, h3, h4⟩ := h w
    exact ⟨v, g', w', h2, h3, ih h4⟩

theorem PN.of_flows {Q : Nat → Str → Prop} {i : Nat} {g : Gen} (h : FlowsAt E Q i g) (n : Nat) :
    PN E ((List.range' i n).map Q) g := by
  induction n generalizing i g with
  | zero => trivial
  | succ n ih =>
    rw [List.range'_succ, List.map_cons]
    intro w
    obtain ⟨v, g', w', h1, h2, h3⟩ := h.out w
    exact ⟨v, g', w', h1, h2, ih h3⟩

theorem PN.map {ps : List (Str → Prop)} {g : Gen} {F : Gen → Gen} {φ : Str → Str}
    (hF' : ∀ g g' v w w', NextG E g w (.ok (some (v, g')) w') →
      NextG E (F g) w (.ok (some (φ v, F g')) w'))
    (h : PN E ps g) : PN E (ps.map fun p s => ∃ x, p x ∧ s = φ x) (F g) := by
  induction ps generalizing g with
  | nil => trivial
  | cons p ps ih =>
    intro w
    obtain ⟨v, g', w', h2, h3, h4⟩ := h w
    exact ⟨φ v, F g', w', hF' _ _ _ _ _ h2, ⟨v, h3, rfl⟩, ih h4⟩

theorem PN.squashIf {ps : List (Str → Prop)} {g : Gen} (h : PN E ps g) :
    PN E (ps.map fun p s => ∃ x, p x ∧ s = squashIf E.ignoreWs x)
      (if E.ignoreWs then .squash g else g) := by
  cases hw : E.ignoreWs
  · refine h.mono ?_
    rw [List.forall₂_map_right_iff]
    exact List.forall₂_same.2 fun p _ s hs => ⟨s, hs, by simp [Spec.squashIf]⟩
  · exact PN.map (F := Gen.squash)
      (fun _ _ _ _ _ h => NextG.of_step (Ev.bind (f := fun n => _) h (Ev.of fun _ => rfl))) h

theorem PN.collect {ps : List (Str → Prop)} {g : Gen} (h : PN E ps g) (w : W) :
    ∃ outs, List.Forall₂ (fun p s => p s) ps outs ∧ Ev fun n => (collect E n ps.length g w).1 = outs ∧
      ∃ g' w', (Verif.collect E n ps.length g w).2 = .limit g' w' := by
  induction ps generalizing g w with
  | nil => exact ⟨[], .nil, Ev.of fun n => ⟨rfl, g, w, rfl⟩⟩
  | cons p ps ih =>
    obtain ⟨v, g', w', h1, h2, h3⟩ := h w
    obtain ⟨outs, h4, h5⟩ := ih h3 w'
    refine ⟨v :: outs, .cons h2 h4, (Ev.and h1 h5).mp fun n ⟨h, ih⟩ => ?_⟩
    simp only [List.length_cons, Verif.collect, nextG, h]
    exact ⟨by rw [ih.1], ih.2⟩

theorem PN.append_of {ps qs : List (Str → Prop)} {F : Gen → Gen} {g : Gen}
    (hF : ∀ g w w', NextG E g w (.ok none w') → ∃ g2 w2, PN E qs g2 ∧
      ∀ o, NextG E g2 w2 o → NextG E (F g) w o)
    (hF' : ∀ g g' v w w', NextG E g w (.ok (some (v, g')) w') →
      NextG E (F g) w (.ok (some (v, F g')) w'))
    (h : PY E ps g) : PN E (ps ++ qs) (F g) := by
  induction ps generalizing g with
  | nil =>
    refine PN.of_step fun w => ?_
    obtain ⟨w', h1⟩ := h w
    exact hF g w w' h1
  | cons p ps ih =>
    intro w
    obtain ⟨v, g', w', h2, h3, h4⟩ := h w
    exact ⟨v, F g', w', hF' _ _ _ _ _ h2, h3, ih h4⟩

/-! ### Going through pairs -/

theorem range_pairs {α β : Type} (h : Nat → α → β) (qs : List α) (d : α) (hq : qs ≠ []) (N : Nat) :
    ((List.range N).flatMap fun i => qs.map (h i)) =
      (List.range (N * qs.length)).map fun k => h (k / qs.length) (qs.getD (k % qs.length) d) := by
  have hpos : 0 < qs.length := List.length_pos_iff.2 hq
  induction N with
  | zero => simp
  | succ N ih =>
    rw [List.range_succ, List.flatMap_append, ih, Nat.succ_mul, List.range_add, List.map_append]
    congr 1
    simp only [List.flatMap_cons, List.flatMap_nil, List.append_nil, List.map_map]
    apply List.ext_getElem
    · simp
    · intro j h1 h2
      have hj : j < qs.length := by simpa using h1
      simp only [List.getElem_map, Function.comp, List.getElem_range]
      rw [show (N * qs.length + j) / qs.length = N by
          rw [Nat.mul_comm, Nat.mul_add_div hpos, Nat.div_eq_of_lt hj]; omega,
        show (N * qs.length + j) % qs.length = j by
          rw [Nat.mul_comm, Nat.mul_add_mod, Nat.mod_eq_of_lt hj]]
      simp [List.getD_eq_getElem?_getD, hj]

/-! ### Sequences -/

theorem PNS.finIn {ctx : Ctx} {cs : List Cmd} {g : Gen} {v : Str} {p : Str → Prop}
    {ps qs : List (List Str → Prop)} {cur : SFrame} (hv : p v) (hc : PYS E (fun _ => True) ps cur)
    (hr : PNS E qs (.fin ctx cs g)) : PNS E (ps.map (consP p) ++ qs) (.finIn ctx cs g v cur) := by
  induction ps generalizing cur with
  | nil =>
    refine PNS.of_step fun coll w => ?_
    obtain ⟨coll', w', h1, h2⟩ := hc coll trivial w
    exact ⟨coll', _, w', hr, fun o ho => NextS.of_step (Ev.bind (f := fun n => _) h1 ho)⟩
  | cons q ps ih =>
    intro coll w
    obtain ⟨coll', t, fr', w', h1, h2, h3, h4⟩ := hc coll trivial w
    exact ⟨coll', v :: t, _, w', NextS.of_step (Ev.bind (f := fun n => _) h1 (Ev.of fun _ => rfl)),
      ⟨_, _, rfl, hv, h3⟩, ih h4⟩

theorem PNS.first {ctx : Ctx} {cs : List Cmd} {g : Gen} {v : Str} {p : Str → Prop}
    {ps : List (List Str → Prop)} {cur : SFrame} (hv : p v) (hc : PNS E ps cur) :
    PNS E (ps.map (consP p)) (.finIn ctx cs g v cur) := by
  induction ps generalizing cur with
  | nil => trivial
  | cons q ps ih =>
    intro coll w
    obtain ⟨coll', t, fr', w', h1, h3, h4⟩ := hc coll w
    exact ⟨coll', v :: t, _, w', NextS.of_step (Ev.bind (f := fun n => _) h1 (Ev.of fun _ => rfl)),
      ⟨_, _, rfl, hv, h3⟩, ih h4⟩

theorem PNS.fin {ctx : Ctx} {cs : List Cmd} {g : Gen}
    {ps : List (Str → Prop)} {qs : List (List Str → Prop)} (hg : PN E ps g)
    (hc : PYS E (fun _ => True) qs (.start ctx cs)) :
    PNS E (ps.flatMap fun p => qs.map (consP p)) (.fin ctx cs g) := by
  induction ps generalizing g with
  | nil => trivial
  | cons p ps ih =>
    refine PNS.of_step fun coll w => ?_
    obtain ⟨v, g', w', h1, h2, h3⟩ := hg w
    exact ⟨coll, _, w', PNS.finIn h2 hc (ih h3), fun o ho => NextS.of_step (Ev.bind (f := fun n => _) h1 ho)⟩

theorem start_fin {ctx : Ctx} {c : Cmd} {cs : List Cmd} {g : Gen} (hn : (ctx.effective c).nonfinite = false)
    (hg : mkGen E.unknown ctx c = .ok g) {ps : List (List Str → Prop)} (h : PNS E ps (.fin ctx cs g)) :
    PNS E ps (.start ctx (c :: cs)) := by
  refine PNS.of_step fun coll w => ⟨coll, _, w, h, fun o ho => NextS.of_step ?_⟩
  refine ho.mp fun n hn' => ?_
  simp only [stepS]
  rw [if_neg (by rw [hn]; simp), M.bind_of_ok (a := g) (w' := w) (by rw [hg]; rfl)]
  exact hn'

/-- The texts before, then the rest. -/
def prefP (as : List Str) (q : List Str → Prop) : List Str → Prop := fun t => ∃ t', t = as ++ t' ∧ q t'

theorem PNS.monoS {ps qs : List (List Str → Prop)} {fr : SFrame} (h : PNS E ps fr)
    (hpq : List.Forall₂ (fun p q => ∀ s, p s → q s) ps qs) : PNS E qs fr := by
  induction hpq generalizing fr with
  | nil => exact h
  | cons h1 _ ih =>
    intro coll w
    obtain ⟨coll', v, g', w', h2, h3, h4⟩ := h coll w
    exact ⟨coll', v, g', w', h2, h1 _ h3, ih h4⟩

theorem PNS.before {ctx : Ctx} {pre cs : List Cmd} {as : List Str} {qs : List (List Str → Prop)}
    (hp : List.Forall₂ (fun c a => (ctx.effective c).nonfinite = false ∧ ∃ g xs, mkGen E.unknown ctx c = .ok g ∧ Yx E (a :: xs) g) pre as)
    (h : PNS E qs (.start ctx cs)) : PNS E (qs.map (prefP as)) (.start ctx (pre ++ cs)) := by
  induction hp with
  | nil =>
    refine h.monoS ?_
    rw [List.forall₂_map_right_iff]
    exact List.forall₂_same.2 fun q _ t ht => ⟨t, rfl, ht⟩
  | @cons c a pre as h1 _ ih =>
    obtain ⟨hn, g, xs, hg, hy⟩ := h1
    refine start_fin hn hg (PNS.monoS (ps := (qs.map (prefP as)).map (consP fun s => s = a)) ?_ ?_)
    · refine PNS.of_step fun coll w => ?_
      obtain ⟨v, g', w', h1, h2, h3⟩ := hy w
      exact ⟨coll, _, w', PNS.first h2 ih, fun o ho => NextS.of_step (Ev.bind (f := fun n => _) h1 ho)⟩
    · rw [List.map_map, List.forall₂_map_left_iff, List.forall₂_map_right_iff]
      refine List.forall₂_same.2 ?_
      rintro q _ t ⟨x, t', rfl, rfl, t'', rfl, hq⟩
      exact ⟨t'', rfl, hq⟩

theorem PN.combSeq {sep : Str} {coll : Coll} {fr : SFrame} {ps : List (List Str → Prop)} (h : PNS E ps fr) :
    PN E (ps.map fun p s => ∃ t, p t ∧ s = joined sep t) (.combSeq sep coll fr) := by
  induction ps generalizing coll fr with
  | nil => trivial
  | cons p ps ih =>
    intro w
    obtain ⟨coll', t, fr', w', h1, h3, h4⟩ := h coll w
    exact ⟨_, _, w', NextG.of_step (Ev.bind (f := fun n => _) h1 (Ev.of fun _ => rfl)), ⟨t, h3, rfl⟩, ih h4⟩

/-- The collection can be made. -/
theorem mkColl_made {ctx : Ctx} {cs : List Cmd}
    (h : ∀ c ∈ cs, ∃ g, mkGen E.unknown ctx c = .ok g ∧ ∀ w, ∃ v g' w', NextG E g w (.ok (some (v, g')) w')) (w : W) :
    ∃ coll w', Ev fun n => (recs E n).mkColl E ctx cs w = .ok coll w' := by
  have key : ∃ gs, mkGens E.unknown ctx cs = .ok gs ∧ ∀ w, ∃ coll w',
      Ev fun n => (recs E n).firstValues (cs.zip gs) w = .ok coll w' := by
    clear w
    induction cs with
    | nil => exact ⟨[], rfl, fun w => ⟨[], w, Ev.of fun _ => rfl⟩⟩
    | cons c cs ih =>
      obtain ⟨gs, hgs, ih⟩ := ih fun c hc => h c (by simp [hc])
      obtain ⟨g, hg, h1⟩ := h c (by simp)
      refine ⟨g :: gs, by simp [mkGens, hg, hgs], fun w => ?_⟩
      obtain ⟨v, g', w1, h3⟩ := h1 w
      obtain ⟨coll, w2, h5⟩ := ih w1
      refine ⟨(c, g', some v) :: coll, w2, ?_⟩
      simp only [List.zip_cons_cons, Recs.firstValues]
      exact Ev.bind (f := fun n => _) (next!_steps h3) (Ev.bind (f := fun n => _) h5 (Ev.of fun _ => rfl))
  obtain ⟨gs, hgs, key⟩ := key
  obtain ⟨coll, w', h1⟩ := key w
  refine ⟨coll, w', ?_⟩
  unfold Recs.mkColl
  exact Ev.bind (a := gs) (w1 := w) (f := fun n => _) (Ev.of fun _ => by rw [hgs]; rfl) h1

theorem PN.start {ctx : Ctx} {c : Cmd} {ps : List (Str → Prop)} (hl : ∀ s m, c ≠ .lit s m)
    (hs : ∀ w, ∃ g w', (Ev fun n => startG E (recs E n) ctx c w = .ok g w') ∧ PN E ps g) : PN E ps (.start ctx c) := by
  refine PN.of_step fun w => ?_
  obtain ⟨g, w', h1, h2⟩ := hs w
  refine ⟨g, w', h2, fun o ho => NextG.of_step ?_⟩
  have key : Ev fun n => (startG E (recs E n) ctx c >>= fun g => (recs E n).G g) w = o :=
    Ev.bind (f := fun n g => (recs E n).G g) h1 ho
  cases c with
  | lit s m => exact absurd rfl (hl s m)
  | _ => exact key

/-- All texts, of a generator that is made. -/
def Unending (E : Env W) (P : Nat → Str → Prop) (g : Gen) : Prop := ∀ n, PN E ((List.range n).map P) g

theorem Unending.of_flows {P : Nat → Str → Prop} {g : Gen} (h : FlowsAt E P 0 g) : Unending E P g := fun n => by
  rw [List.range_eq_range']
  exact PN.of_flows h n

theorem Unending.squashIf {P : Nat → Str → Prop} {g : Gen} (h : Unending E P g) :
    Unending E (fun n s => ∃ x, P n x ∧ s = squashIf E.ignoreWs x) (if E.ignoreWs then .squash g else g) := fun n => by
  have := (h n).squashIf
  rwa [List.map_map] at this

theorem Unending.pairs {P : Nat → Str → Prop} {α : Type} {qs : List α} (d : α) (hq : qs ≠ []) {R : Nat → α → Str → Prop} {g : Gen}
    (h : ∀ N, PN E ((List.range N).flatMap fun i => qs.map (R i)) g) :
    Unending E (fun k => R (k / qs.length) (qs.getD (k % qs.length) d)) g := fun n => by
  have := h n
  rw [range_pairs R qs d hq] at this
  have hpos : 0 < qs.length := List.length_pos_iff.2 hq
  obtain ⟨r, hr⟩ : ∃ r, n * qs.length = n + r := ⟨n * qs.length - n, by have := Nat.le_mul_of_pos_right n hpos; omega⟩
  rw [hr, List.range_add, List.map_append] at this
  exact this.take

theorem mkGen_unending_of_start {vars : List (Str × Cmd)} {being : List Str} {c : Cmd}
    {P : Nat → Str → Prop} (hc : ∀ n d, c ≠ .access n d) (ha : ∀ n v i o, c ≠ .assign n v i o)
    (hm : Finite c.method) (h : Unending E P (.start ⟨.comb, vars, being⟩ c)) :
    ∃ g, mkGen E.unknown ⟨.comb, vars, being⟩ c = .ok g ∧ Unending E P g := by
  refine ⟨_, ?_, h⟩
  have hn : effMethod .comb c.method = .comb := effMethod_finite hm
  rw [mkGen_outcome (.target hc)]
  cases c with
  | assign n v i o => exact absurd rfl (ha n v i o)
  | access n d => exact absurd rfl (hc n d)
  | wrap a b m => simp only [outcomeGen, hn]; rw [if_neg (by simp)]
  | _ => simp only [outcomeGen, hn]

theorem mkGen_marked {vars : List (Str × Cmd)} {being : List Str} {c : Cmd} (hm : c.method = some .cyc) :
    mkGen E.unknown ⟨.comb, vars, being⟩ c = mkGen E.unknown ⟨.cyc, vars, being⟩ c := by
  have hc : ∀ n d, c ≠ .access n d := by rintro n d rfl; cases hm
  rw [mkGen_outcome (.target hc), mkGen_outcome (.target hc)]
  have h1 : effMethod .comb (some .cyc) = .cyc := rfl
  have h2 : effMethod .cyc (some .cyc) = .cyc := rfl
  cases c <;> simp [outcomeGen, h1, h2, hm]

theorem neverEnds_seq {vars new : List (Str × Cmd)} {being : List Str} {toks before after : List Cmd} {x : Cmd} {sep : Str}
    {m : Option Method} {outss rests : List (List Str)} {as : List Str} {P : Nat → Str → Prop}
    (hA : ListsAssigned E vars being toks (before ++ x :: after) new) (hb : ListsTokens E (new ++ vars) being before outss)
    (has : List.Forall₂ (fun outs a => outs.head? = some a) outss as) (hx : Finite x.method)
    (h : ∃ g, mkGen E.unknown ⟨.comb, new ++ vars, being⟩ x = .ok g ∧ Unending E P g)
    (hr : ListsTokens E (new ++ vars) being after rests) (hne : product rests ≠ []) :
    Unending E (fun n s => ∃ y, P (n / (product rests).length) y ∧
        s = joined sep ([] :: as ++ y :: (product rests).getD (n % (product rests).length) [] ++ [[]]))
      (.start ⟨.comb, vars, being⟩ (.seq toks sep m)) := by
  obtain ⟨gx, hgx, hPx⟩ := h
  have hb' := listsTokens_Yx hb
  have hr' := listsTokens_Yx hr
  have hbefore : List.Forall₂ (fun c a => ((Ctx.mk .comb (new ++ vars) being).effective c).nonfinite = false ∧
      ∃ g xs, mkGen E.unknown ⟨.comb, new ++ vars, being⟩ c = .ok g ∧ Yx E (a :: xs) g) before as := by
    clear hA hb hne
    induction hb' generalizing as with
    | nil => cases has; exact .nil
    | cons h1 _ ih =>
      cases has with
      | cons h2 h3 =>
        obtain ⟨hf, -, g, hg, hy⟩ := h1
        rename_i outs _ _ _ _ _
        cases outs with
        | nil => cases h2
        | cons o outs =>
          cases h2
          exact .cons ⟨effective_finite hf rfl, g, outs, hg, hy⟩ (ih h3)
  refine Unending.pairs (P := P) (R := fun i t s => ∃ y, P i y ∧ s = joined sep ([] :: as ++ y :: t ++ [[]])) [] hne fun N => ?_
  refine PN.start (by simp) fun w => ?_
  obtain ⟨w1, h1⟩ := listsAssigned_Yx hA w
  obtain ⟨coll, w2, h2⟩ := mkColl_made (E := E) (ctx := ⟨.comb, new ++ vars, being⟩)
    (cs := (before ++ x :: after).filter (fun c => c.method ≠ some .comb)) (by
      intro c hc
      obtain ⟨hc, hm'⟩ := List.mem_filter.1 hc
      have key : ∀ {cs : List Cmd} {os : List (List Str)}, List.Forall₂ (fun c outs => Finite c.method ∧ (c.method = none → outs ≠ []) ∧
          ∃ g, mkGen E.unknown ⟨.comb, new ++ vars, being⟩ c = .ok g ∧ Yx E outs g) cs os → c ∈ cs →
          ∃ g, mkGen E.unknown ⟨.comb, new ++ vars, being⟩ c = .ok g ∧ ∀ w, ∃ v g' w', NextG E g w (.ok (some (v, g')) w') := by
        intro cs os hcs hmem
        obtain ⟨outs, hf, hne, g, hg, hy⟩ := forall2_left hcs hmem
        have hnone : c.method = none := by
          rcases hf with hf | hf
          · exact hf
          · simp [hf] at hm'
        cases outs with
        | nil => exact absurd rfl (hne hnone)
        | cons o outs =>
          refine ⟨g, hg, fun w => ?_⟩
          obtain ⟨v, g', w', h, -⟩ := hy w
          exact ⟨v, g', w', h⟩
      rcases List.mem_append.1 hc with hc | hc
      · exact key hb' hc
      · rcases List.mem_cons.1 hc with rfl | hc
        · refine ⟨gx, hgx, fun w => ?_⟩
          obtain ⟨v, g', w', h, -⟩ := hPx 1 w
          exact ⟨v, g', w', h⟩
        · exact key hr' hc) w1
  refine ⟨.combSeq sep coll (.start ⟨.comb, new ++ vars, being⟩ (sentinel :: (before ++ x :: after) ++ [sentinel])), w2, ?_, ?_⟩
  · refine Ev.bind (f := fun n => _) h1 ?_
    exact Ev.bind (f := fun n => _) h2 (Ev.of fun _ => rfl)
  · have hpost : PYS E (fun _ => True) (prodP ((rests ++ [[[]]]).map fun (xs : List Str) => xs.map fun o s => s = o))
        (.start ⟨.comb, new ++ vars, being⟩ (after ++ [sentinel])) := by
      refine PYS.start ?_
      rw [List.map_append]
      refine forall2_snoc ?_ sentinel_ok
      rw [List.forall₂_map_right_iff]
      exact hr'.imp fun c outs ⟨hf, _, g, hg, hy⟩ => Or.inr ⟨effective_finite hf rfl, g, hg, hy⟩
    have h3 := start_fin (cs := after ++ [sentinel]) (effective_finite (ctx := ⟨.comb, new ++ vars, being⟩) hx rfl) hgx
      (PNS.fin (hPx N) hpost)
    have h4 := PNS.before (pre := sentinel :: before) (as := [] :: as) (.cons ⟨rfl, _, [], rfl, fun w =>
      ⟨[], .done, w, NextG.of_step (Ev.of fun _ => rfl), rfl, Yx.done⟩⟩ hbefore) h3
    have h5 := PN.combSeq (sep := sep) (coll := coll) h4
    simp only [List.cons_append, List.append_assoc] at h5 ⊢
    refine h5.mono ?_
    have hprod : product (rests ++ [[[]]]) = (product rests).map fun t => t ++ [([] : Str)] := by
      clear * -
      induction rests with
      | nil => rfl
      | cons xs xss ih => simp [product, ih, List.map_flatMap, List.map_map, Function.comp_def]
    rw [prodP_exact, hprod]
    simp only [List.flatMap_map, List.map_map, List.map_flatMap]
    refine List.rel_flatMap (List.forall₂_same.2 fun i _ => rfl) ?_
    rintro i _ rfl
    rw [List.forall₂_map_left_iff, List.forall₂_map_right_iff]
    refine List.forall₂_same.2 ?_
    rintro t _ s ⟨t', ⟨t'', rfl, y, t3, rfl, hy, rfl⟩, rfl⟩
    exact ⟨y, hy, by simp⟩

/-! ### Wildcards and wraps -/

theorem PN.rep (s : Str) (n : Nat) : PN E ((List.range n).map fun _ t => t = s) (.rep s) := by
  rw [show ((List.range n).map fun _ (t : Str) => t = s) = List.replicate n (fun t => t = s) by simp]
  induction n with
  | zero => trivial
  | succ n ih =>
    rw [List.replicate_succ]
    exact fun w => ⟨s, .rep s, w, NextG.of_step (Ev.of fun _ => rfl), rfl, ih⟩

theorem PN.combWild {ctx : Ctx} {before after : List Str} {x : Str} {f : Str → List Str} {qs : List (Str → Prop)}
    (h : ∀ y ∈ before, ∃ g, sampleGen E ctx (.inl y) = .ok g ∧ Yx E (f y) g)
    (hx : ∃ g, sampleGen E ctx (.inl x) = .ok g ∧ PN E qs g) :
    ∀ {cur : Gen} {ts : List Str}, Yx E ts cur →
      PN E (((ts ++ before.flatMap f).map fun o s => s = o) ++ qs) (.combWild ctx (before ++ x :: after) cur) := by
  have hstep : ∀ (vals : List Str) g g' v w w', NextG E g w (.ok (some (v, g')) w') →
      NextG E (.combWild ctx vals g) w (.ok (some (v, .combWild ctx vals g')) w') := fun vals g g' v w w' h1 =>
    NextG.of_step (Ev.bind (f := fun n => _) h1 (Ev.of fun _ => rfl))
  have hin : ∀ (qs : List (Str → Prop)) (vals : List Str) (g : Gen), PN E qs g → PN E qs (.combWild ctx vals g) := by
    intro qs
    induction qs with
    | nil => exact fun _ _ _ => trivial
    | cons q qs ih =>
      intro vals g hg w
      obtain ⟨v, g', w', h1, h2, h3⟩ := hg w
      exact ⟨v, _, w', hstep _ _ _ _ _ _ h1, h2, ih _ _ h3⟩
  induction before with
  | nil =>
    intro cur ts hc
    obtain ⟨g0, hg0, hy⟩ := hx
    rw [List.flatMap_nil, List.append_nil]
    refine PN.append_of (F := Gen.combWild ctx (x :: after)) ?_ (fun g g' v w w' h1 => hstep _ _ _ _ _ _ h1) hc
    intro g w w' h1
    refine ⟨_, w', hin qs after g0 hy, fun o ho => NextG.of_step (Ev.bind (f := fun n => _) h1 ?_)⟩
    exact Ev.bind (a := g0) (w1 := w') (f := fun n => _) (Ev.of fun _ => by rw [hg0]; rfl) ho
  | cons b before ih =>
    intro cur ts hc
    obtain ⟨g0, hg0, hy⟩ := h b (by simp)
    have := ih (fun y hy => h y (by simp [hy])) hy
    rw [List.flatMap_cons, List.map_append, List.append_assoc]
    refine PN.append_of (F := Gen.combWild ctx (b :: before ++ x :: after)) ?_ (fun g g' v w w' h1 => hstep _ _ _ _ _ _ h1) hc
    intro g w w' h1
    refine ⟨_, w', this, fun o ho => NextG.of_step (Ev.bind (f := fun n => _) h1 ?_)⟩
    exact Ev.bind (a := g0) (w1 := w') (f := fun n => _) (Ev.of fun _ => by rw [hg0]; rfl) ho

theorem PN.wrapInside {ctx : Ctx} {inner : Cmd} {wg ig : Gen} {x : Str} {qs : List (Str → Prop)} (hy : PN E qs ig) :
    PN E (qs.map fun q s => ∃ y, q y ∧ s = wrapWith x y) (.combWrapIn ctx inner wg x ig) := by
  induction qs generalizing ig with
  | nil => trivial
  | cons q qs ih =>
    intro w
    obtain ⟨v, g', w', h1, h2, h3⟩ := hy w
    exact ⟨_, _, w', NextG.of_step (Ev.bind (f := fun n => _) h1 (Ev.of fun _ => rfl)), ⟨v, h2, rfl⟩, ih h3⟩

theorem PN.wrapIn {ctx : Ctx} {inner : Cmd} {wg ig : Gen} {x : Str} {ys : List Str} {R : List (Str → Prop)}
    (hy : Yx E ys ig) (hr : PN E R (.combWrap ctx inner wg)) :
    PN E ((ys.map fun y s => s = wrapWith x y) ++ R) (.combWrapIn ctx inner wg x ig) := by
  induction ys generalizing ig with
  | nil =>
    refine PN.of_step fun w => ?_
    obtain ⟨w', h1⟩ := hy w
    exact ⟨_, w', hr, fun o ho => NextG.of_step (Ev.bind (f := fun n => _) h1 ho)⟩
  | cons y ys ih =>
    intro w
    obtain ⟨v, g', w', h1, h2, h3⟩ := hy w
    replace h2 : v = y := h2
    exact ⟨_, _, w', NextG.of_step (Ev.bind (f := fun n => _) h1 (Ev.of fun _ => rfl)), by rw [h2], ih h3⟩

theorem PN.wrapAround {ctx : Ctx} {inner : Cmd} {wg ig : Gen} {ps : List (Str → Prop)} {ys : List Str}
    (hi : sampleGen E ctx (.inr inner) = .ok ig) (hy : Yx E ys ig) (hx : PN E ps wg) :
    PN E (ps.flatMap fun p => ys.map fun y s => ∃ x, p x ∧ s = wrapWith x y) (.combWrap ctx inner wg) := by
  induction ps generalizing wg with
  | nil => trivial
  | cons p ps ih =>
    refine PN.of_step fun w => ?_
    obtain ⟨v, g', w', h1, h2, h3⟩ := hx w
    have h4 := PN.wrapIn (x := v) hy (ih h3)
    refine ⟨_, w', PN.mono (qs := (p :: ps).flatMap _) h4 ?_, fun o ho =>
      NextG.of_step (Ev.bind (f := fun n => _) h1 ?_)⟩
    · rw [List.flatMap_cons]
      apply List.rel_append
      · rw [List.forall₂_map_left_iff, List.forall₂_map_right_iff]
        apply List.forall₂_same.2
        rintro q _ s rfl
        exact ⟨v, h2, rfl⟩
      · exact List.forall₂_same.2 fun _ _ _ h => h
    · exact Ev.bind (a := ig) (w1 := w') (f := fun n => _) (Ev.of fun _ => by rw [hi]; rfl) ho

/-! ### All commands -/

mutual
theorem neverEnds_unending {vars : List (Str × Cmd)} {being : List Str} {c : Cmd} {P : Nat → Str → Prop}
    (h : NeverEnds E vars being c P) : ∃ g, mkGen E.unknown ⟨.comb, vars, being⟩ c = .ok g ∧ Unending E P g := by
  match h with
  | .cyclical hm hc =>
    obtain ⟨g, hg, hs⟩ := cycles_streams hc
    exact ⟨g, by rw [mkGen_marked hm, hg], .of_flows (.of_streams hs)⟩
  | .marked hm hp =>
    obtain ⟨g, hg, hl⟩ := prod_liveIn hp
    exact ⟨g, hg, .of_flows (.of_liveIn hl 0)⟩
  | .access hr hb h' =>
    obtain ⟨g, hg, hl⟩ := neverEnds_unending h'
    refine ⟨g, ?_, hl⟩
    obtain ⟨o, ho⟩ := chain_total E.unknown vars (_ :: being) _
    rw [mkGen_outcome (ctx := ⟨.comb, vars, being⟩) (.step hr hb ho), ← hg,
      mkGen_outcome (ctx := ⟨.comb, vars, _ :: being⟩) ho]
    cases o <;> rfl
  | .seq hm hA hb has hx h' hr hne =>
    exact mkGen_unending_of_start (by simp) (by simp) hm (neverEnds_seq hA hb has hx (neverEnds_unending h') hr hne)
  | .wild (path := path) (v := v) (items := items) (before := before) (x := x) (after := after) (P := Q) f hm hp hans hi hb hx =>
    refine mkGen_unending_of_start (by simp) (by simp) hm fun n => ?_
    obtain ⟨g, hg, hu⟩ := neverEndsPrompt_unending hx
    refine PN.start (by simp) fun w => ?_
    obtain ⟨w1, h1⟩ := sampleFirst_Yx (listsPrompt_Yx hp) w
    obtain ⟨w2, h2⟩ := hans w1
    have hie : items.isEmpty = false := by
      cases items with
      | nil => simp [iterateWeighted] at hi
      | cons _ _ => rfl
    refine ⟨.combWild ⟨.comb, v ++ vars, being⟩ (iterateWeighted items) .done, w2,
      Ev.bind (f := fun n => _) h1 (Ev.bind (f := fun n => _) (Ev.of fun _ => h2) (Ev.of fun _ => ?_)), ?_⟩
    · dsimp only
      rw [hie]
      rfl
    · have := PN.combWild (after := after) (fun y hy => listsPrompt_Yx (hb y hy)) ⟨g, hg, hu n⟩ (cur := .done) (ts := []) Yx.done
      rw [hi]
      rw [List.nil_append] at this
      generalize hL : before.flatMap f = L at this ⊢
      have h3 : (L.map fun o s => s = o) ++ (List.range n).map Q =
          (List.range (n + L.length)).map fun k s => if k < L.length then s = L.getD k [] else Q (k - L.length) s := by
        rw [Nat.add_comm, List.range_add, List.map_append]
        congr 1
        · apply List.ext_getElem
          · simp
          · intro j h1 h2
            have hj : j < L.length := by simpa using h1
            funext s
            simp [hj, List.getD_eq_getElem?_getD]
        · rw [List.map_map]
          apply List.map_congr_left
          intro j _
          funext s
          simp
      rw [h3, List.range_add, List.map_append] at this
      exact this.take
  | .missing (s := s) hm hp hans =>
    refine mkGen_unending_of_start (by simp) (by simp) hm fun n => ?_
    refine PN.start (by simp) fun w => ?_
    obtain ⟨w1, h1⟩ := sampleFirst_Yx (listsPrompt_Yx hp) w
    obtain ⟨w2, h2⟩ := hans w1
    exact ⟨.rep (E.toWildcard s), w2, Ev.bind (f := fun n => _) h1 (Ev.bind (f := fun n => _) (Ev.of fun _ => h2) (Ev.of fun _ => rfl)),
      PN.rep _ n⟩
  | .missingNamed (q := q) hm hp hans hq =>
    refine mkGen_unending_of_start (by simp) (by simp) hm fun n => ?_
    refine PN.start (by simp) fun w => ?_
    obtain ⟨w1, h1⟩ := sampleFirst_Yx (listsPrompt_Yx hp) w
    obtain ⟨w2, h2⟩ := hans w1
    obtain ⟨w3, h3⟩ := sampleFirst_Yx (listsPrompt_Yx hq) w2
    exact ⟨.rep (E.toWildcard q), w3, Ev.bind (f := fun n => _) h1 (Ev.bind (f := fun n => _) (Ev.of fun _ => h2)
      (Ev.bind (f := fun n => _) h3 (Ev.of fun _ => rfl))), PN.rep _ n⟩
  | .inside (w := w0) (i := i) (x := x) hm hw hi =>
    refine mkGen_unending_of_start (by simp) (by simp) hm fun n => ?_
    obtain ⟨wg, hwg, hwy⟩ := listsPrompt_Yx hw
    obtain ⟨ig, hig, hiy⟩ := neverEndsPrompt_unending hi
    refine PN.start (by simp) (fun w => ⟨.combWrap ⟨.comb, vars, being⟩ i wg, w, Ev.of fun n => ?_, ?_⟩)
    · simp only [startG, hwg]; rfl
    · refine PN.of_step fun w => ?_
      obtain ⟨v, g', w', h1, h2, -⟩ := hwy w
      replace h2 : v = x := h2
      subst h2
      have := PN.wrapInside (ctx := ⟨.comb, vars, being⟩) (inner := i) (wg := g') (x := v) (hiy n)
      rw [List.map_map] at this
      refine ⟨_, w', this, fun o ho => NextG.of_step (Ev.bind (f := fun n => _) h1 ?_)⟩
      exact Ev.bind (a := ig) (w1 := w') (f := fun n => _) (Ev.of fun _ => by rw [hig]; rfl) ho
  | .around (w := w0) (i := i) (ys := ys) (P := Q) hm hw hi hne =>
    refine mkGen_unending_of_start (by simp) (by simp) hm ?_
    obtain ⟨wg, hwg, hwy⟩ := neverEndsPrompt_unending hw
    obtain ⟨ig, hig, hiy⟩ := listsPrompt_Yx hi
    refine Unending.pairs (P := Q) (R := fun k y s => ∃ x, Q k x ∧ s = wrapWith x y) [] hne fun N => ?_
    refine PN.start (by simp) (fun w => ⟨.combWrap ⟨.comb, vars, being⟩ i wg, w, Ev.of fun n => ?_, ?_⟩)
    · simp only [startG, hwg]; rfl
    · have := PN.wrapAround (ctx := ⟨.comb, vars, being⟩) hig hiy (hwy N)
      rwa [List.flatMap_map] at this
theorem neverEndsPrompt_unending {vars : List (Str × Cmd)} {being : List Str} {p : Prompt} {P : Nat → Str → Prop}
    (h : NeverEndsPrompt E vars being p P) : ∃ g, sampleGen E ⟨.comb, vars, being⟩ p = .ok g ∧ Unending E P g := by
  match h with
  | .text (s := s) hne hp hc =>
    obtain ⟨g, hg, hl⟩ := neverEnds_unending hc
    refine ⟨if E.ignoreWs then .squash g else g, ?_, hl.squashIf⟩
    cases s with
    | nil => exact absurd rfl hne
    | cons a s => simp [sampleGen, hp, hg]
  | .cmd ht hc =>
    obtain ⟨g, hg, hl⟩ := neverEnds_unending hc
    exact ⟨if E.ignoreWs then .squash g else g, by simp [sampleGen, ht, hg], hl.squashIf⟩
end

end Verif
