import Verif.Spec.Reachable
import Verif.Proofs.Live
import Verif.Proofs.Limit
/-! Random outcomes under which a given text is produced. -/

namespace Verif
open Spec Props
variable {α β : Type} {E : Env Draws}

/-- For some outcomes of the draws, `x` gives `a` and consumes exactly these outcomes. -/
def Yield (x : M Draws α) (a : α) : Prop := ∃ pre : Draws, ∀ rest, x (pre ++ rest) = .ok a rest

theorem Yield.pure (a : α) : Yield (Pure.pure a) a := ⟨[], fun _ => rfl⟩

theorem Yield.bind {x : M Draws α} {a : α} {f : α → M Draws β} {b : β} (h : Yield x a)
    (h' : Yield (f a) b) : Yield (x >>= f) b := by
  obtain ⟨p, h⟩ := h; obtain ⟨q, h'⟩ := h'
  refine ⟨p ++ q, fun rest => ?_⟩
  rw [List.append_assoc, M.bind_of_ok (h _), h']

theorem Yield.lift {x : Except Err α} {a : α} (h : x = .ok a) : Yield (M.lift x) a := by
  subst h; exact ⟨[], fun _ => rfl⟩

theorem Yield.const {x : M Draws α} {a : α} (h : ∀ w, x w = .ok a w) : Yield x a :=
  ⟨[], fun w => h w⟩

theorem yield_randint {a b k : Int} (h1 : a ≤ k) (h2 : k ≤ b) : Yield (drawn.randint a b) k := by
  refine ⟨[.below (k - a).toNat], fun rest => ?_⟩
  have h3 : (k - a).toNat < (b - a).toNat + 1 := by omega
  simp only [Rng.randint, if_pos (show a ≤ b by omega), drawn, List.singleton_append, dif_pos h3]
  congr 1
  omega

theorem yield_choice {l : List α} {i : Nat} {v : α} (h : l[i]? = some v) : Yield (drawn.choice l) v := by
  cases l with
  | nil => simp at h
  | cons a as =>
    have hi : i < as.length + 1 := by
      obtain ⟨h, -⟩ := List.getElem?_eq_some_iff.1 h
      simpa using h
    refine ⟨[.below i], fun rest => ?_⟩
    simp only [Rng.choice, drawn, List.singleton_append, dif_pos hi]
    rw [List.getD_eq_getElem?_getD, h]
    rfl

theorem yield_choices {pop : List α} {ws : List Rat} (hl : ws.length = pop.length)
    (hw : ∀ x ∈ ws, 0 ≤ x) {i : Nat} (hi : i < ws.length) (hpos : 0 < ws[i]) {v : α}
    (hv : pop[i]? = some v) (k : Nat) :
    Yield (drawn.choicesCum pop (accumulate .exact ws) k) (List.replicate k v) := by
  have hsum : 0 < ws.sum := by
    have h1 := (List.perm_cons_erase (List.getElem_mem hi)).sum_eq
    rw [h1, List.sum_cons]
    have h2 := List.sum_nonneg (l := ws.erase ws[i]) (fun y hy => hw y (List.mem_of_mem_erase hy))
    linarith
  have hne : ws ≠ [] := by rintro rfl; simp at hi
  have c1 : ¬ (accumulate .exact ws).length ≠ pop.length := by rw [accumulate_length]; simpa using hl
  have c2 : ¬ (accumulate .exact ws).isEmpty = true := by
    rw [List.isEmpty_iff, ← List.length_eq_zero_iff, accumulate_length, List.length_eq_zero_iff]
    exact hne
  have c3 : ¬ (accumulate .exact ws).getLastD 0 ≤ 0 := by rw [accumulate_getLastD]; linarith
  obtain ⟨q, q0, q1, hq⟩ := draw_reaches ws hw i hi hpos
  induction k with
  | zero =>
    refine ⟨[], fun rest => ?_⟩
    simp only [Rng.choicesCum]
    rw [if_neg c1, if_neg c2, if_neg c3]
    rfl
  | succ k ih =>
    obtain ⟨p, ih⟩ := ih
    refine ⟨.unit ⟨q, q0, q1⟩ :: p, fun rest => ?_⟩
    simp only [Rng.choicesCum]
    rw [if_neg c1, if_neg c2, if_neg c3]
    simp only [drawn, List.cons_append, hq, hv]
    have := ih rest
    simp only [drawn] at this
    rw [M.bind_of_ok this]
    rfl

theorem yield_chooseLoop [DecidableEq α] {vs cs : List α} {ws : List Rat} (hl : ws.length = vs.length)
    (hpos : ∀ x ∈ ws, 0 < x) (hs : cs.Subperm vs) : Yield (chooseLoop drawn cs.length vs ws) cs := by
  induction cs generalizing vs ws with
  | nil => exact .pure _
  | cons c cs ih =>
    have hmem : c ∈ vs := hs.subset (by simp)
    obtain ⟨i, hi, hget⟩ := List.mem_iff_getElem.1 hmem
    have hidx : vs.idxOf c < ws.length := by rw [hl]; exact List.idxOf_lt_length_iff.2 hmem
    have hwm : ws.getD (vs.idxOf c) 0 ∈ ws := by
      rw [List.getD_eq_getElem?_getD, List.getElem?_eq_getElem hidx]
      exact List.getElem_mem _
    have h1 := yield_choices (pop := vs) hl (fun x hx => (hpos x hx).le) (i := i) (by omega)
      (hpos _ (List.getElem_mem _)) (by rw [List.getElem?_eq_getElem hi, hget]) 1
    have hs' : cs.Subperm (vs.erase c) := by
      have := hs.erase c
      simpa using this
    refine .bind h1 ?_
    refine .bind (ih (vs := vs.erase c) (ws := ws.erase (ws.getD (vs.idxOf c) 0))
      (by rw [List.length_erase_of_mem hmem, List.length_erase_of_mem hwm, hl])
      (fun x hx => hpos x (List.mem_of_mem_erase hx)) hs') (.pure _)

theorem choose_eq_loop [DecidableEq α] {vs : List α} {ws : List Rat} {k : Nat}
    (hl : ws.length = vs.length) (h2 : 2 ≤ vs.length) (hk : k ≤ vs.length) :
    chooseWithoutReplacement drawn vs ws k = chooseLoop drawn k vs ws := by
  unfold chooseWithoutReplacement
  rw [if_neg (by omega)]
  have he : ws.isEmpty = false := by
    cases ws with
    | nil => simp at hl; omega
    | cons => rfl
  rw [he]
  simp only [Bool.false_eq_true, if_false]
  rw [if_neg (by simpa using hl.symm)]
  match vs, h2, hl with
  | a :: b :: l, _, hl => simp

theorem yield_choose [DecidableEq α] {vs cs : List α} {ws : List Rat} (hl : ws.length = vs.length)
    (h2 : 2 ≤ vs.length) (hpos : ∀ x ∈ ws, 0 < x) (hs : cs.Subperm vs) :
    Yield (chooseWithoutReplacement drawn vs ws cs.length) cs := by
  rw [choose_eq_loop hl h2 hs.length_le]
  exact yield_chooseLoop hl hpos hs

theorem yield_chooseOne [DecidableEq α] {vs : List α} {c : α} {ws : List Rat} (hl : ws.length = vs.length)
    (h2 : 2 ≤ vs.length) (hnn : ∀ x ∈ ws, 0 ≤ x) {i : Nat} (hi : i < ws.length) (hpos : 0 < ws[i])
    (hc : vs[i]? = some c) : Yield (chooseWithoutReplacement drawn vs ws (1 : Nat)) [c] := by
  rw [choose_eq_loop hl h2 (by omega)]
  exact .bind (yield_choices hl hnn hi hpos hc 1) (.bind (.pure _) (.pure _))

theorem yield_weightedNext {items : List Item} {item : Item} (hnn : ∀ i ∈ items, 0 ≤ i.weight.getD 1)
    (hm : item ∈ items) (hpos : 0 < item.weight.getD 1) :
    ∃ buf, Yield (weightedNext drawn items []) (item.content, buf) := by
  obtain ⟨i, hi, hget⟩ := List.mem_iff_getElem.1 hm
  have hc : (items.map Item.content)[i]? = some item.content := by
    rw [List.getElem?_map, List.getElem?_eq_getElem hi, hget]; rfl
  unfold weightedNext
  rw [show drawn.arith = Arith.exact from rfl]
  by_cases hv : hasVariedWeights items = true
  · rw [hv]
    simp only [Bool.not_true, Bool.false_eq_true, if_false]
    have hi' : i < (items.map Item.w).length := by simpa using hi
    refine ⟨List.replicate 9 item.content, .bind (yield_choices (ws := items.map Item.w) (by simp)
      (fun x hx => ?_) (i := i) hi' ?_ hc 10) (.pure _)⟩
    · obtain ⟨j, hj, rfl⟩ := List.mem_map.1 hx
      exact hnn j hj
    · simp only [List.getElem_map, hget]; exact hpos
  · have hv' : hasVariedWeights items = false := by simpa using hv
    rw [hv']
    simp only [Bool.not_false, if_true]
    exact ⟨[], .bind (yield_choice hc) (.pure _)⟩

/-! ### Generators -/

/-- For some outcomes, the next text of `g` is `s`. -/
def Reach (E : Env Draws) (g : Gen) (s : Str) : Prop := ∃ g', Yield ((lim E).G g) (some (s, g'))

theorem Reach.of_step {g g' : Gen} {s : Str} (h : Yield (stepG E (lim E) g) (some (s, g'))) :
    Reach E g s := ⟨g', by rw [lim_G]; exact h⟩

theorem Reach.next! {g : Gen} {s : Str} (h : Reach E g s) :
    ∃ g', Yield ((lim E).next! g) (s, g') := by
  obtain ⟨g', h⟩ := h
  exact ⟨g', .bind h (.pure _)⟩

theorem reach_rotate {gs : List Gen} {ss : List Str} (h : List.Forall₂ (Reach E) gs ss) :
    ∃ gs', Yield ((lim E).rotate gs) (ss, gs') := by
  induction h with
  | nil => exact ⟨[], .pure _⟩
  | cons h _ ih =>
    obtain ⟨g', h⟩ := h.next!
    obtain ⟨gs', ih⟩ := ih
    exact ⟨g' :: gs', .bind h (.bind ih (.pure _))⟩

theorem reach_rep (s : Str) : Reach E (.rep s) s := .of_step (.pure _)

theorem reach_squash {g : Gen} {s : Str} (h : Reach E g s) : Reach E (.squash g) (squashWhitespace s) := by
  obtain ⟨g', h⟩ := h
  exact .of_step (.bind h (.pure _))

theorem reach_zipWrap {wg ig : Gen} {w i : Str} (hw : Reach E wg w) (hi : Reach E ig i) :
    Reach E (.zipWrap wg ig) (wrapWith w i) := by
  obtain ⟨wg', hw⟩ := hw
  obtain ⟨ig', hi⟩ := hi
  exact .of_step (.bind hw (.bind hi (.pure _)))

theorem reach_seqNF {sep : Str} {gs : List Gen} {ss : List Str} (h : List.Forall₂ (Reach E) gs ss) :
    Reach E (.seqNF sep gs) (joined sep ss) := by
  obtain ⟨gs', h⟩ := reach_rotate h
  exact .of_step (.bind h (.pure _))

theorem reach_start {ctx : Ctx} {c : Cmd} {s : Str} {g : Gen} (hc : ∀ s m, c ≠ .lit s m)
    (h : Yield (startG E (lim E) ctx c) g) (hg : Reach E g s) : Reach E (.start ctx c) s := by
  obtain ⟨g', hg⟩ := hg
  refine .of_step (g' := g') ?_
  have : stepG E (lim E) (.start ctx c) = (startG E (lim E) ctx c >>= fun g => (lim E).G g) := by
    cases c with
    | lit s m => exact absurd rfl (hc s m)
    | _ => rfl
  rw [this]
  exact .bind h hg

theorem reach_mkGens {ctx : Ctx} {cs : List Cmd} {ss : List Str}
    (h : List.Forall₂ (fun c s => ∃ g, mkGen E.unknown ctx c = .ok g ∧ Reach E g s) cs ss) :
    ∃ gs, mkGens E.unknown ctx cs = .ok gs ∧ List.Forall₂ (Reach E) gs ss := by
  induction h with
  | nil => exact ⟨[], rfl, .nil⟩
  | cons h _ ih =>
    obtain ⟨g, h1, h2⟩ := h
    obtain ⟨gs, h3, h4⟩ := ih
    exact ⟨g :: gs, by simp [mkGens, h1, h3], .cons h2 h4⟩

theorem reach_sampleFirst {ctx : Ctx} {p : Prompt} {s : Str}
    (h : ∃ g, sampleGen E ctx p = .ok g ∧ Reach E g s) : Yield ((lim E).sampleFirst E ctx p) s := by
  obtain ⟨g, h1, h2⟩ := h
  obtain ⟨g', h2⟩ := h2.next!
  exact .bind (.lift h1) (.bind h2 (.pure _))

theorem reach_randVar (hE : E.rng = drawn) {ctx : Ctx} {opts : List (Cmd × Rat)} {lo hi : Int}
    {sep : Str} {cs : List Cmd} {ss : List Str} (h0 : 0 ≤ max lo hi)
    (hb : InBounds opts.length lo hi cs.length)
    (hsel : Yield (chooseWithoutReplacement drawn (opts.map (·.1)) (opts.map (·.2)) cs.length) cs)
    (h : List.Forall₂ (fun c s => ∃ g, mkGen E.unknown ctx c = .ok g ∧ Reach E g s) cs ss) :
    Reach E (.randVar ctx opts lo hi sep) (joined sep ss) := by
  obtain ⟨gs, h1, h2⟩ := reach_mkGens h
  obtain ⟨gs', h3⟩ := reach_rotate h2
  have hk : (adjustBounds opts.length lo hi).1 ≤ (cs.length : Int) ∧
      (cs.length : Int) ≤ (adjustBounds opts.length lo hi).2 := by
    simp only [adjustBounds, normBounds, InBounds] at *; omega
  have hmin : min (adjustBounds opts.length lo hi).2 (cs.length : Int) = cs.length := by omega
  refine .of_step (g' := .randVar ctx opts (adjustBounds opts.length lo hi).1
    (adjustBounds opts.length lo hi).2 sep) ?_
  simp only [stepG]
  rw [hE]
  refine .bind (yield_randint hk.1 hk.2) ?_
  rw [hmin]
  refine .bind hsel (.bind (.lift h1) ?_)
  cases gs with
  | nil =>
    cases h2
    have hj : joined sep [] = [] := by
      unfold joined removeprefix removesuffix pyJoin
      by_cases hse : sep = [] <;> simp [hse, startsWith, endsWith]
    rw [hj]
    exact .pure _
  | cons g gs => exact .bind h3 (.pure _)

theorem reach_mkGen_of_start {vars : List (Str × Cmd)} {being : List Str} {c : Cmd} {s : Str}
    (hm : c.method ≠ some .cyc) (hc : ∀ n d, c ≠ .access n d) (ha : ∀ n v i o, c ≠ .assign n v i o)
    (h : Reach E (.start ⟨.random, vars, being⟩ c) s) :
    ∃ g, mkGen E.unknown ⟨.random, vars, being⟩ c = .ok g ∧ Reach E g s := by
  have hn : nest .random c.method = .random := by
    rcases hm' : c.method with _ | m
    · rfl
    · cases m with
      | random => rfl
      | comb => rfl
      | cyc => exact absurd hm' hm
  refine ⟨_, ?_, h⟩
  rw [mkGen_outcome (ctx := ⟨.random, vars, being⟩) (.target hc)]
  cases c with
  | assign n v i o => exact absurd rfl (ha n v i o)
  | wrap a b m =>
    simp only [outcomeGen, effMethod_eq_nest]
    rw [if_neg (by rw [hn]; simp), hn]
  | access n d => exact absurd rfl (hc n d)
  | _ => simp only [outcomeGen, effMethod_eq_nest, hn]

theorem reach_assign {ctx : Ctx} {name : Str} {value : Cmd} {s : Str} {o : Bool}
    (ho : o = true ∨ ctx.vars.lookup name = none) (hv : ∀ s m, value ≠ .lit s m)
    (h : ∃ g, mkGen E.unknown ctx value = .ok g ∧ Reach E g s) :
    Yield ((lim E).assign E ctx name value true o) (.lit s none) := by
  obtain ⟨g, h1, h2⟩ := h
  obtain ⟨g', h2⟩ := h2.next!
  have : (if o = true then none else ctx.vars.lookup name) = none := by
    rcases ho with rfl | h
    · rfl
    · rw [h]; split <;> rfl
  unfold Recs.assign
  rw [this]
  dsimp only
  rw [if_pos rfl]
  have key : Yield (do
      let g ← M.lift (mkGen E.unknown ctx value)
      let (v, _) ← (lim E).next! g
      return Cmd.lit v none : M Draws Cmd) (.lit s none) := .bind (.lift h1) (.bind h2 (.pure _))
  cases value with
  | lit s m => exact absurd rfl (hv s m)
  | _ => exact key

theorem assign_plain {ctx : Ctx} {name : Str} {value : Cmd} {o : Bool}
    (ho : o = true ∨ ctx.vars.lookup name = none) :
    Yield ((lim E).assign E ctx name value false o) value := by
  have : (if o = true then none else ctx.vars.lookup name) = none := by
    rcases ho with rfl | h
    · rfl
    · rw [h]; split <;> rfl
  unfold Recs.assign
  rw [this]
  exact .pure _

theorem assign_literal {ctx : Ctx} {name s : Str} {m : Option Method} {o : Bool}
    (ho : o = true ∨ ctx.vars.lookup name = none) :
    Yield ((lim E).assign E ctx name (.lit s m) true o) (.lit s m) := by
  have : (if o = true then none else ctx.vars.lookup name) = none := by
    rcases ho with rfl | h
    · rfl
    · rw [h]; split <;> rfl
  unfold Recs.assign
  rw [this]
  exact .pure _

mutual
theorem could_reach (hE : E.rng = drawn) {vars : List (Str × Cmd)} {being : List Str} {c : Cmd} {s : Str}
    (h : Could E vars being c s) :
    ∃ g, mkGen E.unknown ⟨.random, vars, being⟩ c = .ok g ∧ Reach E g s := by
  match h with
  | .cmd hm hin =>
    refine reach_mkGen_of_start hm ?_ ?_ (couldIn_reach hE hin)
    · rintro n d rfl; cases hin
    · rintro n v i o rfl; cases hin
  | .access hr hb h' =>
    obtain ⟨g, hg, hl⟩ := could_reach hE h'
    refine ⟨g, ?_, hl⟩
    obtain ⟨o, ho⟩ := chain_total E.unknown vars (_ :: being) _
    rw [mkGen_outcome (ctx := ⟨.random, vars, being⟩) (.step hr hb ho), ← hg,
      mkGen_outcome (ctx := ⟨.random, vars, _ :: being⟩) ho]
    cases o <;> rfl
theorem couldAll_reach (hE : E.rng = drawn) {vars : List (Str × Cmd)} {being : List Str}
    {cs : List Cmd} {ss : List Str} (h : CouldAll E vars being cs ss) :
    List.Forall₂ (fun c s => ∃ g, mkGen E.unknown ⟨.random, vars, being⟩ c = .ok g ∧ Reach E g s) cs ss := by
  match h with
  | .nil => exact .nil
  | .cons h1 h2 => exact .cons (could_reach hE h1) (couldAll_reach hE h2)
theorem couldIn_reach (hE : E.rng = drawn) {vars : List (Str × Cmd)} {being : List Str} {c : Cmd} {s : Str}
    (h : CouldIn E vars being c s) : Reach E (.start ⟨.random, vars, being⟩ c) s := by
  match h with
  | .lit => exact .of_step (.pure _)
  | .seq (toks' := toks') (new := new) hA hall =>
    have h1 := couldAssign_reach hE hA
    obtain ⟨gs, h2, h3⟩ := reach_mkGens (couldAll_reach hE hall)
    exact reach_start (by simp) (.bind h1 (.bind (.lift h2) (.pure _))) (reach_seqNF h3)
  | .variant (opts := opts) (lo := lo) (hi := hi) (sep := sep) h2 h0 hpos hs hb hall =>
    refine reach_start (g := .randVar ⟨.random, vars, being⟩ opts lo hi sep) (by simp) ?_
      (reach_randVar hE h0 hb (yield_choose (by simp) (by simpa using h2) ?_ hs) (couldAll_reach hE hall))
    · match opts, h2 with
      | (a, _) :: b :: l, _ => cases a <;> exact .pure _
    · intro x hx
      obtain ⟨p, hp, rfl⟩ := List.mem_map.1 hx
      exact hpos p hp
  | .variantOne (opts := opts) (lo := lo) (hi := hi) (sep := sep) (c := c) h2 hnn hm hpos hb hc =>
    have h0 : 0 ≤ max lo hi := by simp only [InBounds] at hb; omega
    obtain ⟨i, hi, hget⟩ := List.mem_iff_getElem.1 hm
    have hr := reach_randVar (sep := sep) (cs := [c]) (ss := [_]) hE h0 hb (yield_chooseOne (by simp) (by simpa using h2)
      (fun x hx => by
        obtain ⟨p, hp, rfl⟩ := List.mem_map.1 hx
        exact hnn p hp) (i := i) (by simpa using hi) (by simp only [List.getElem_map, hget]; exact hpos)
      (by rw [List.getElem?_map, List.getElem?_eq_getElem hi, hget]; rfl))
      (.cons (could_reach hE hc) .nil)
    rw [show joined sep [s] = s by simp [joined]] at hr
    refine reach_start (by simp) ?_ hr
    match opts, h2 with
    | (a, _) :: b :: l, _ => cases a <;> exact .pure _
  | .variantSingle (c := c) (wt := wt) hs hc =>
    obtain ⟨g, h1, h2⟩ := could_reach hE hc
    refine reach_start (by simp) ?_ h2
    cases c with
    | wild p m v => exact absurd ⟨p, m, v, wt, rfl⟩ hs
    | _ => exact .lift h1
  | .variantWild hp hg hps hv =>
    have h1 := reach_sampleFirst (couldPrompt_reach hE hp)
    have h2 := couldIn_reach hE hv
    refine reach_start (by simp) ?_ h2
    refine .bind (.bind h1 (.bind (.const hg) ?_)) (.pure _)
    dsimp only
    rw [mapM_of_parses hps]
    exact .bind (.lift rfl) (.pure _)
  | .wild (v := v) (items := items) (item := item) hp hg hnn hm hpos hv =>
    have h1 := reach_sampleFirst (couldPrompt_reach hE hp)
    obtain ⟨g, h2, g', h3⟩ := couldPrompt_reach hE hv
    have hne : items.isEmpty = false := by
      cases items with
      | nil => simp at hm
      | cons => rfl
    obtain ⟨buf, h4⟩ := yield_weightedNext hnn hm hpos
    refine reach_start (g := .randWild ⟨.random, v ++ vars, being⟩ items []) (by simp) ?_
      (.of_step (g' := .randWild ⟨.random, v ++ vars, being⟩ items buf) ?_)
    · refine .bind h1 (.bind (.const hg) ?_)
      rw [hne]
      exact .pure _
    · simp only [stepG]
      rw [hE]
      exact .bind h4 (.bind (.lift h2) (.bind h3 (.pure _)))
  | .wildMissing hp hg =>
    have h1 := reach_sampleFirst (couldPrompt_reach hE hp)
    refine reach_start (by simp) ?_ (reach_rep _)
    exact .bind h1 (.bind (.const hg) (.bind (.pure _) (.pure _)))
  | .wildMissingCmd hp hg hp' =>
    have h1 := reach_sampleFirst (couldPrompt_reach hE hp)
    have h2 := reach_sampleFirst (couldPrompt_reach hE hp')
    refine reach_start (by simp) ?_ (reach_rep _)
    exact .bind h1 (.bind (.const hg) (.bind h2 (.pure _)))
  | .wrap hw hi =>
    obtain ⟨wg, h1, h2⟩ := could_reach hE hw
    obtain ⟨ig, h3, h4⟩ := could_reach hE hi
    exact reach_start (by simp) (.bind (.lift h1) (.bind (.lift h3) (.pure _))) (reach_zipWrap h2 h4)
theorem couldPrompt_reach (hE : E.rng = drawn) {vars : List (Str × Cmd)} {being : List Str} {p : Prompt}
    {s : Str} (h : CouldPrompt E vars being p s) :
    ∃ g, sampleGen E ⟨.random, vars, being⟩ p = .ok g ∧ Reach E g s := by
  match h with
  | .text (p := p) hne hp hc =>
    obtain ⟨g, hg, hl⟩ := could_reach hE hc
    refine ⟨if E.ignoreWs then .squash g else g, ?_, ?_⟩
    · cases p with
      | nil => exact absurd rfl hne
      | cons a s => simp [sampleGen, hp, hg]
    · split
      · exact reach_squash hl
      · exact hl
  | .cmd ht hc =>
    obtain ⟨g, hg, hl⟩ := could_reach hE hc
    refine ⟨if E.ignoreWs then .squash g else g, ?_, ?_⟩
    · simp [sampleGen, ht, hg]
    · split
      · exact reach_squash hl
      · exact hl
theorem couldAssign_reach (hE : E.rng = drawn) {vars : List (Str × Cmd)} {being : List Str}
    {toks toks' : List Cmd} {new : List (Str × Cmd)} (h : CouldAssign E vars being toks toks' new) :
    Yield ((lim E).assigns E ⟨.random, vars, being⟩ toks) (toks', new) := by
  match h with
  | .nil => exact .pure _
  | .tok (c := c) hc h =>
    have ih := couldAssign_reach hE h
    cases c with
    | assign n v i o => exact absurd rfl (hc n v i o)
    | _ => exact .bind ih (.pure _)
  | .keep hl h =>
    have ih := couldAssign_reach hE h
    refine .bind (a := _) ?_ (.bind ih (.pure _))
    unfold Recs.assign
    simp only [Bool.false_eq_true, if_false, hl]
    exact .pure _
  | .plain ho h => exact .bind (assign_plain (ctx := ⟨.random, vars, being⟩) ho) (.bind (couldAssign_reach hE h) (.pure _))
  | .literal ho h => exact .bind (assign_literal (ctx := ⟨.random, vars, being⟩) ho) (.bind (couldAssign_reach hE h) (.pure _))
  | .immediate ho hv hc h =>
    exact .bind (reach_assign (ctx := ⟨.random, vars, being⟩) ho hv (could_reach hE hc))
      (.bind (couldAssign_reach hE h) (.pure _))
end

end Verif
