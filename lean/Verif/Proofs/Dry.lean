import Verif.Proofs.Errors
/-! Where StopIteration cannot escape: generators that always have a next text, and generators that have a first one. -/

namespace Verif
open Spec
variable {W : Type} {E : Env W}

/-- What is known of a generator: nothing, it has a next text, it always has a next text. -/
inductive Kind where
  | any
  | fresh
  | live
deriving DecidableEq

/-- What is known after one text. -/
def Kind.next : Kind → Kind
  | .live => .live
  | _ => .any

namespace Inv
variable (I : Inv E)

mutual
inductive WG : Kind → Gen → Prop
  | done : WG .any .done
  | start {k ctx c} : I.COK ctx → I.Q ctx.being c → (∀ n d, c ≠ .access n d) →
      (k = .live → ctx.method ≠ .comb) → WG k (.start ctx c)
  | rep {k s} : WG k (.rep s)
  | seqNF {k sep gens} : WL gens → WG k (.seqNF sep gens)
  | randVar {k ctx opts lo hi sep} : I.COK ctx → ctx.method ≠ .comb → (∀ p ∈ opts, I.Q ctx.being p.1) →
      2 ≤ opts.length →
      (0 ≤ max lo hi ∧ DrawableWeights (opts.map (·.2)) (max 0 (min (max lo hi) opts.length))) ∨ I.S .value →
      WG k (.randVar ctx opts lo hi sep)
  | randWild {k ctx items buf} : I.COK ctx → ctx.method ≠ .comb → items ≠ [] →
      (∀ i ∈ items, I.TextOK ctx.being i.content) → (∀ x ∈ buf, x ∈ items.map Item.content) →
      (¬ VariedWeights items ∨ DrawableItems items) ∨ I.S .value → WG k (.randWild ctx items buf)
  | zipWrap {k wg ig} : WG .live wg → WG .live ig → WG k (.zipWrap wg ig)
  | cycVar {k sep q} : WAL q → WG k (.cycVar sep q)
  | cycWild {k q} : q ≠ [] → WL q → WG k (.cycWild q)
  | combSeq {k sep coll fr} : k ≠ .live → WC coll → WS (coll.map (·.1)) k fr → WG k (.combSeq sep coll fr)
  | combVar {k ctx sep seen pend} : k ≠ .live → I.COK ctx →
      (∀ p ∈ pend, p.2.length = p.1 ∧ ∀ c ∈ p.2, I.Q ctx.being c) →
      (k = .fresh → seen = [] ∧ ∃ p l, pend = p :: l ∧ p.1 ≤ 1) → WG k (.combVar ctx sep seen pend)
  | combVarIn {k ctx sep seen pend b fr} : k ≠ .live → I.COK ctx →
      (∀ p ∈ pend, p.2.length = p.1 ∧ ∀ c ∈ p.2, I.Q ctx.being c) →
      (k = .fresh → seen = [] ∧ b ≤ 1) → WP k b fr → WG k (.combVarIn ctx sep seen pend b fr)
  | combWild {k ctx vals cur} : k ≠ .live → I.COK ctx → (∀ v ∈ vals, I.TextOK ctx.being v ∧ v ≠ []) →
      (k = .fresh → vals ≠ []) → WG .any cur → WG k (.combWild ctx vals cur)
  | combWildIn {ctx vals cur} : I.COK ctx → (∀ v ∈ vals, I.TextOK ctx.being v ∧ v ≠ []) →
      WG .fresh cur → WG .fresh (.combWild ctx vals cur)
  | combWrap {k ctx inner wg} : k ≠ .live → I.COK ctx → I.Q ctx.being inner → inner.truthy = true → WG k wg →
      WG k (.combWrap ctx inner wg)
  | combWrapIn {k ctx inner wg w ig} : k ≠ .live → I.COK ctx → I.Q ctx.being inner → inner.truthy = true →
      WG .any wg → WG k ig → WG k (.combWrapIn ctx inner wg w ig)
  | squash {k g} : WG k g → WG k (.squash g)
inductive WL : List Gen → Prop
  | nil : WL []
  | cons {g gs} : WG .live g → WL gs → WL (g :: gs)
inductive WC : Coll → Prop
  | nil : WC []
  | cons {c g v cs} : WG .any g → WC cs → WC ((c, g, v) :: cs)
inductive WA : Arr → Prop
  | start {ctx combo} : I.COK ctx → ctx.method ≠ .comb → (∀ c ∈ combo, I.Q ctx.being c) → WA (.start ctx combo)
  | nil : WA .nil
  | node {g rest} : WG .live g → WA rest → WA (.node g rest)
inductive WAL : List Arr → Prop
  | nil : WAL []
  | cons {g gs} : WA g → WAL gs → WAL (g :: gs)
inductive WS : List Cmd → Kind → SFrame → Prop
  | done {K} : WS K .any .done
  | start {K k ctx cs} : k ≠ .live → I.COK ctx → (∀ c ∈ cs, I.Q ctx.being c) →
      (∀ c ∈ cs, (ctx.effective c).nonfinite = true → c ∈ K) → WS K k (.start ctx cs)
  | nf {K k c rest} : c ∈ K → WS K k rest → WS K k (.nf c rest)
  | fin {K k ctx rest g} : k ≠ .live → I.COK ctx → (∀ c ∈ rest, I.Q ctx.being c) →
      (∀ c ∈ rest, (ctx.effective c).nonfinite = true → c ∈ K) → WG k g → WS K k (.fin ctx rest g)
  | finIn {K k ctx rest g v cur} : I.COK ctx → (∀ c ∈ rest, I.Q ctx.being c) →
      (∀ c ∈ rest, (ctx.effective c).nonfinite = true → c ∈ K) → WG .any g → WS K k cur →
      WS K k (.finIn ctx rest g v cur)
inductive WP : Kind → Nat → PFrame → Prop
  | done {b} : WP .any b .done
  | start {k ctx cs} : k ≠ .live → I.COK ctx → (∀ c ∈ cs, I.Q ctx.being c) → WP k cs.length (.start ctx cs)
  | nf {k b g rest} : WG .live g → WP k b rest → WP k (b + 1) (.nf g rest)
  | fin {k ctx rest g} : k ≠ .live → I.COK ctx → (∀ c ∈ rest, I.Q ctx.being c) → WG k g →
      WP k (rest.length + 1) (.fin ctx rest g)
  | finIn {k ctx rest g v cur} : I.COK ctx → (∀ c ∈ rest, I.Q ctx.being c) → WG .any g →
      WP k rest.length cur → WP k (rest.length + 1) (.finIn ctx rest g v cur)
end

variable {I}

theorem WL.append {xs ys : List Gen} (hx : I.WL xs) (hy : I.WL ys) : I.WL (xs ++ ys) := by
  match hx with
  | .nil => exact hy
  | .cons h h' => exact .cons h (WL.append h' hy)

theorem WAL.append {xs ys : List Arr} (hx : I.WAL xs) (hy : I.WAL ys) : I.WAL (xs ++ ys) := by
  match hx with
  | .nil => exact hy
  | .cons h h' => exact .cons h (WAL.append h' hy)

theorem mkGen_W {ctx : Ctx} {c : Cmd} {k : Kind} (hctx : I.COK ctx) (hc : I.Q ctx.being c)
    (hk : k = .live → ctx.method ≠ .comb ∨ (ctx.effective c).nonfinite = true) :
    (∀ g, mkGen E.unknown ctx c = .ok g → I.WG k g) ∧ ∀ e, mkGen E.unknown ctx c = .error e → I.S e := by
  refine ⟨?_, (mkGen_F hctx hc).2⟩
  obtain ⟨o, ho⟩ := chain_total E.unknown ctx.vars ctx.being c
  have hok := chain_Q hctx hc ho
  rw [mkGen_outcome ho]
  intro g h
  obtain ⟨b, c', rfl, rfl⟩ := outcomeGen_ok h
  refine .start ⟨effMethod_MM hctx hok.1, hctx.vars, hctx.base⟩ hok.1 hok.2 fun e => ?_
  by_cases hm : ctx.method = .comb
  · have hnf := (hk e).resolve_left (fun h => h hm)
    cases ho with
    | target _ =>
      dsimp only
      unfold Ctx.effective at hnf
      rw [effMethod_eq_nest]
      cases hcm : c.method with
      | none => rw [hcm, hm] at hnf; cases hnf
      | some m =>
        rw [hcm] at hnf
        simp only [nest, hm, ne_eq, not_true_eq_false, and_false, if_false]
        intro h; subst h; cases hnf
    | step _ _ _ =>
      simp only [Ctx.effective, Cmd.method, hm] at hnf
      cases hnf
  · exact effMethod_ne_comb hm _

theorem mkGens_W {ctx : Ctx} {cs : List Cmd} (hctx : I.COK ctx) (hm : ctx.method ≠ .comb)
    (hc : ∀ c ∈ cs, I.Q ctx.being c) :
    (∀ gs, mkGens E.unknown ctx cs = .ok gs → I.WL gs) ∧ ∀ e, mkGens E.unknown ctx cs = .error e → I.S e := by
  refine ⟨?_, (mkGens_F hctx hc).2⟩
  induction cs with
  | nil => exact fun gs h => by cases h; exact .nil
  | cons c cs ih =>
    have h1 := mkGen_W (k := .live) hctx (hc c (by simp)) (fun _ => .inl hm)
    have h2 := ih fun c h => hc c (by simp [h])
    unfold mkGens
    cases e1 : mkGen E.unknown ctx c with
    | error e => exact fun _ h => by cases h
    | ok g =>
      cases e2 : mkGens E.unknown ctx cs with
      | error e => exact fun _ h => by cases h
      | ok gs => exact fun _ h => by cases h; exact .cons (h1.1 _ e1) (h2 _ e2)

theorem mkGens_fresh {ctx : Ctx} {cs : List Cmd} (hctx : I.COK ctx) (hc : ∀ c ∈ cs, I.Q ctx.being c) :
    (∀ gs, mkGens E.unknown ctx cs = .ok gs → (∀ g ∈ gs, I.WG .fresh g) ∧ gs.length = cs.length) ∧
      ∀ e, mkGens E.unknown ctx cs = .error e → I.S e := by
  refine ⟨?_, (mkGens_F hctx hc).2⟩
  induction cs with
  | nil => exact fun gs h => by cases h; exact ⟨by simp, rfl⟩
  | cons c cs ih =>
    have h1 := mkGen_W (k := .fresh) hctx (hc c (by simp)) (fun h => by cases h)
    have h2 := ih fun c h => hc c (by simp [h])
    unfold mkGens
    cases e1 : mkGen E.unknown ctx c with
    | error e => exact fun _ h => by cases h
    | ok g =>
      cases e2 : mkGens E.unknown ctx cs with
      | error e => exact fun _ h => by cases h
      | ok gs =>
        intro _ h
        cases h
        refine ⟨fun x hx => ?_, by simp [(h2 _ e2).2]⟩
        rcases List.mem_cons.1 hx with rfl | hx
        · exact h1.1 _ e1
        · exact (h2 _ e2).1 x hx

/-- The prompt is not an empty text or command. -/
def Filled : Prompt → Prop
  | .inl s => s ≠ []
  | .inr c => c.truthy = true

theorem sampleGen_W {ctx : Ctx} {p : Prompt} {k : Kind} (hctx : I.COK ctx) (hp : I.PromptOK ctx.being p)
    (hk : k = .any ∨ Filled p) (hl : k = .live → ctx.method ≠ .comb) :
    (∀ g, sampleGen E ctx p = .ok g → I.WG k g) ∧ ∀ e, sampleGen E ctx p = .error e → I.S e := by
  refine ⟨?_, (sampleGen_F hctx hp).2⟩
  have key : ∀ c, I.Q ctx.being c → ∀ g, (match mkGen E.unknown ctx c with
        | .error e => .error e
        | .ok g => .ok (if E.ignoreWs then .squash g else g) : Except Err Gen) = .ok g → I.WG k g := by
    intro c hc g hx
    have h := mkGen_W (k := k) hctx hc (fun e => .inl (hl e))
    cases h1 : mkGen E.unknown ctx c with
    | error e => rw [h1] at hx; cases hx
    | ok g' =>
      rw [h1] at hx; cases hx
      have := h.1 _ h1
      split
      · exact .squash this
      · exact this
  cases p with
  | inl s =>
    simp only [sampleGen]
    split
    · rename_i he
      intro g h; cases h
      rcases hk with rfl | hk
      · exact .done
      · exact absurd (by simpa using he) hk
    · cases h1 : E.parse s with
      | error e => exact fun g h => by (cases h)
      | ok c => exact key c (hp.1 c h1)
  | inr c =>
    simp only [sampleGen]
    split
    · rename_i he
      intro g h; cases h
      rcases hk with rfl | hk
      · exact .done
      · rw [show c.truthy = true from hk] at he; cases he
    · exact key c hp

theorem sampleGens_W {ctx : Ctx} {ps : List Str} (hctx : I.COK ctx) (hm : ctx.method ≠ .comb)
    (hp : ∀ p ∈ ps, I.TextOK ctx.being p ∧ p ≠ []) :
    (∀ gs, sampleGens E ctx ps = .ok gs → I.WL gs ∧ (gs = [] → ps = [])) ∧
      ∀ e, sampleGens E ctx ps = .error e → I.S e := by
  refine ⟨?_, (sampleGens_F hctx fun p h => (hp p h).1).2⟩
  induction ps with
  | nil => exact fun gs h => by cases h; exact ⟨.nil, fun _ => rfl⟩
  | cons p ps ih =>
    have h1 := sampleGen_W (p := .inl p) (k := .live) hctx (hp p (by simp)).1 (.inr (hp p (by simp)).2)
      (fun _ => hm)
    have h2 := ih fun c h => hp c (by simp [h])
    unfold sampleGens
    cases e1 : sampleGen E ctx (.inl p) with
    | error e => exact fun _ h => by cases h
    | ok g =>
      cases e2 : sampleGens E ctx ps with
      | error e => exact fun _ h => by cases h
      | ok gs => exact fun _ h => by cases h; exact ⟨.cons (h1.1 _ e1) (h2 _ e2).1, by simp⟩

/-- The answer of a generator of kind `k`. -/
def Post {α γ : Type} (P : γ → Prop) (k : Kind) : Option (α × γ) → Prop
  | none => k = .any
  | some x => P x.2

/-- Where RuntimeError is not permitted. -/
structure RecsW (I : Inv E) (r : Recs W) : Prop where
  good : Good E r
  rt : ¬ I.S .runtime
  G : ∀ k g, I.WG k g → Errs I.S (Post (I.WG k.next) k) (r.G g)
  A : ∀ a, I.WA a → Errs I.S (fun x => ∃ y, x = some y ∧ I.WA y.2) (r.A a)
  S : ∀ k coll fr, I.WC coll → I.WS (coll.map (·.1)) k fr →
    Errs I.S (fun x => I.WC x.1 ∧ x.1.map (·.1) = coll.map (·.1) ∧ Post (I.WS (coll.map (·.1)) .any) k x.2)
      (r.S coll fr)
  P : ∀ k b fr, I.WP k b fr →
    Errs I.S (fun x => Post (I.WP .any b) k x ∧ ∀ y, x = some y → y.1.length = b) (r.P fr)

section
variable {r : Recs W} (hr : I.RecsW r)
include hr

theorem next!_W {k : Kind} (hk : k ≠ .any) {g : Gen} (hg : I.WG k g) :
    Errs I.S (fun x => I.WG k.next x.2) (r.next! g) := by
  unfold Recs.next!
  refine (hr.G k g hg).bind fun a ha => ?_
  cases a with
  | none => exact absurd ha hk
  | some x => exact .pure ha

theorem rotate_W {gs : List Gen} (hg : I.WL gs) : Errs I.S (fun x => I.WL x.2) (r.rotate gs) := by
  match hg with
  | .nil => exact .pure .nil
  | .cons h h' =>
    unfold Recs.rotate
    exact (next!_W hr (k := .live) (by simp) h).bind fun x hx => (rotate_W h').bind fun y hy => .pure (.cons hx hy)

theorem sampleFirst_W {ctx : Ctx} {p : Prompt} (hctx : I.COK ctx) (hp : I.PromptOK ctx.being p) (hf : Filled p) :
    Errs I.S (Named E p) (r.sampleFirst E ctx p) := by
  have : Errs I.S (fun _ => True) (r.sampleFirst E ctx p) := by
    unfold Recs.sampleFirst
    have h := sampleGen_W (k := .fresh) hctx hp (.inr hf) (fun h => by cases h)
    exact (Errs.lift h.1 h.2).bind fun g hg => (next!_W hr (by simp) hg).bind fun _ _ => .pure trivial
  exact fun w => ⟨fun a w1 ha => ⟨_, sampleFirst_good hr.good ha⟩, (this w).2⟩

theorem assign_W {ctx : Ctx} (hctx : I.COK ctx) {name : Str} {value : Cmd} (i o : Bool)
    (hv : I.Q ctx.being value) (hb : I.B name value) :
    Errs I.S (fun c => I.B name c) (r.assign E ctx name value i o) := by
  unfold Recs.assign
  cases h : (if o = true then none else List.lookup name ctx.vars) with
  | some v =>
    refine .pure ?_
    split at h
    · cases h
    · exact hctx.vars _ (mem_of_lookup h)
  | none =>
    cases i with
    | false => exact .pure hb
    | true =>
      simp only [if_true]
      have h' := mkGen_W (k := .fresh) hctx hv (fun h => by cases h)
      have key : Errs I.S (fun c => I.B name c) (do
          let g ← M.lift (mkGen E.unknown ctx value)
          let (v, _) ← r.next! g
          return Cmd.lit v none) :=
        (Errs.lift h'.1 h'.2).bind fun g hg => (next!_W hr (by simp) hg).bind fun _ _ => .pure I.bindLit
      cases value <;> first | exact Errs.pure hb | exact key

theorem assigns_W {ctx : Ctx} (hctx : I.COK ctx) {cs : List Cmd}
    (ht : ∀ c ∈ cs, (∀ n v i o, c ≠ .assign n v i o) → I.Q ctx.being c)
    (ha : ∀ n v i o, .assign n v i o ∈ cs → I.B n v ∧ I.Q ctx.being v) :
    Errs I.S (fun x => (∀ c ∈ x.1, I.Q ctx.being c) ∧ ∀ b ∈ x.2, I.B b.1 b.2) (r.assigns E ctx cs) := by
  induction cs with
  | nil => exact .pure (by simp)
  | cons c cs ih =>
    have ih := ih (fun c h => ht c (by simp [h])) (fun n v i o h => ha n v i o (by simp [h]))
    have hc := ht c (by simp)
    cases c <;> simp only [Recs.assigns]
    case assign n v i o =>
      have hav := ha n v i o (by simp)
      refine (assign_W hr hctx i o hav.2 hav.1).bind fun a ha => ih.bind fun b hb => .pure ⟨hb.1, ?_⟩
      intro x hx
      rcases List.mem_append.1 hx with hx | hx
      · exact hb.2 x hx
      · simp only [List.mem_singleton] at hx; subst hx; exact ha
    all_goals
      refine ih.bind fun b hb => .pure ⟨?_, hb.2⟩
      intro x hx
      rcases List.mem_cons.1 hx with rfl | hx
      · exact hc (by simp)
      · exact hb.1 x hx

theorem firstValues_W {l : List (Cmd × Gen)} (h : ∀ p ∈ l, I.WG .fresh p.2) :
    Errs I.S (fun x => I.WC x ∧ x.map (·.1) = l.map (·.1)) (r.firstValues l) := by
  induction l with
  | nil => exact .pure ⟨.nil, rfl⟩
  | cons p l ih =>
    obtain ⟨c, g⟩ := p
    unfold Recs.firstValues
    exact (next!_W hr (by simp) (h (c, g) (by simp))).bind fun x hx =>
      (ih fun p hp => h p (by simp [hp])).bind fun y hy => .pure ⟨.cons hx hy.1, by simp [hy.2]⟩

theorem mkColl_W {ctx : Ctx} (hctx : I.COK ctx) {cs : List Cmd} (hcs : ∀ c ∈ cs, I.Q ctx.being c) :
    Errs I.S (fun x => I.WC x ∧ x.map (·.1) = cs) (r.mkColl E ctx cs) := by
  unfold Recs.mkColl
  have h := mkGens_fresh hctx hcs
  refine (Errs.lift h.1 h.2).bind fun gs hgs => ?_
  have e : (cs.zip gs).map (·.1) = cs := List.map_fst_zip (by omega)
  have := firstValues_W hr (l := cs.zip gs) (fun p hp => hgs.1 _ (List.of_mem_zip hp).2)
  rw [e] at this
  exact this

theorem getValue_W {c : Cmd} {coll : Coll} (h : I.WC coll) (hc : c ∈ coll.map (·.1)) :
    Errs I.S (fun x => I.WC x.2 ∧ x.2.map (·.1) = coll.map (·.1)) (r.getValue c coll) := by
  match h with
  | .nil => simp at hc
  | .cons (c := c') (g := g) (v := v) (cs := cs) h1 h2 =>
    unfold Recs.getValue
    by_cases hcc : c' = c
    · simp only [hcc, if_true]
      refine (hr.G .any g h1).bind fun x hx => ?_
      cases x with
      | none => exact .pure ⟨.cons .done h2, by simp⟩
      | some x => exact .pure ⟨.cons hx h2, by simp⟩
    · simp only [hcc, if_false]
      have hc' : c ∈ cs.map (·.1) := by
        simp only [List.map_cons, List.mem_cons] at hc
        rcases hc with hc | hc
        · exact absurd hc.symm hcc
        · exact hc
      exact (getValue_W h2 hc').bind fun x hx => .pure ⟨.cons h1 hx.1, by simp [hx.2]⟩

theorem wild_filled {b : List Str} {path : Prompt} {m : Option Method} {v : List (Str × Cmd)}
    (hc : I.Q b (.wild path m v)) : Filled path := by
  cases path with
  | inl s => intro e; subst e; exact hr.rt (I.emptyTextErr hc)
  | inr c =>
    cases h : c.truthy with
    | true => exact h
    | false => exact absurd (I.emptyPathErr hc h) hr.rt

end

theorem boundCombos_length {cs : List Cmd} {lo hi : Int} : ∀ p ∈ boundCombos cs lo hi, p.2.length = p.1 := by
  intro p hp
  simp only [boundCombos, List.mem_flatMap, List.mem_map] at hp
  obtain ⟨b, -, c, hc, rfl⟩ := hp
  exact (mem_getCombos.1 hc).1

theorem boundCombos_head {cs : List Cmd} {lo hi : Int} (hne : cs ≠ []) (h0 : 0 ≤ lo) (h1 : lo ≤ 1) (h2 : lo ≤ hi) :
    ∃ p l, boundCombos cs lo hi = p :: l ∧ p.1 ≤ 1 := by
  have hr : ∃ t, boundRange lo hi = lo.toNat :: t := by
    unfold boundRange
    obtain ⟨n, hn⟩ : ∃ n, (hi + 1 - lo).toNat = n + 1 := ⟨(hi - lo).toNat, by omega⟩
    rw [hn, List.range_succ_eq_map, List.map_cons]
    exact ⟨_, rfl⟩
  obtain ⟨t, ht⟩ := hr
  have hg : ∃ c l, getCombos lo.toNat cs = c :: l := by
    have : lo = 0 ∨ lo = 1 := by omega
    rcases this with rfl | rfl
    · exact ⟨[], [], rfl⟩
    · cases cs with
      | nil => exact absurd rfl hne
      | cons c cs => exact ⟨[c], _, by simp [getCombos, List.flatMap_cons]; rfl⟩
  obtain ⟨c, l, hg⟩ := hg
  have he : boundCombos cs lo hi = (lo.toNat, c) :: (l.map (fun c => (lo.toNat, c)) ++
      t.flatMap fun b => (getCombos b cs).map (fun c => (b, c))) := by
    unfold boundCombos
    rw [ht, List.flatMap_cons, hg]
    rfl
  exact ⟨_, _, he, by dsimp only; omega⟩

section
variable {r : Recs W} (hr : I.RecsW r)
include hr

theorem startG_W {ctx : Ctx} {k : Kind} (hctx : I.COK ctx) {c : Cmd} (hc : I.Q ctx.being c)
    (hn : ∀ n d, c ≠ .access n d) (hl : k = .live → ctx.method ≠ .comb) :
    Errs I.S (I.WG k) (startG E r ctx c) := by
  have hcomb : ctx.method = .comb → k ≠ .live := fun h e => hl e h
  unfold startG
  cases c with
  | lit t m => exact .pure .rep
  | seq toks sep m =>
    refine (assigns_W hr hctx (fun c h => I.token hc h) (fun n v i o h => I.assigned hc h)).bind fun a ha => ?_
    obtain ⟨toks', new⟩ := a
    have hctx' := hctx.withVars ha.2
    have key : ctx.method ≠ .comb → Errs I.S (I.WG k) (do
          let gens ← M.lift (mkGens E.unknown (ctx.withVars new) toks')
          return .seqNF sep gens : M W Gen) := fun hm => by
      have hm := mkGens_W hctx' hm (cs := toks') ha.1
      exact (Errs.lift hm.1 hm.2).bind fun gs hgs => .pure (.seqNF hgs)
    cases h : ctx.method with
    | random => exact key (by simp [h])
    | cyc => exact key (by simp [h])
    | comb =>
      refine (mkColl_W hr hctx' fun c h => ha.1 c (List.mem_of_mem_filter h)).bind fun coll hcoll =>
        .pure (.combSeq (hcomb h) hcoll.1 (.start (hcomb h) hctx' ?_ ?_))
      · intro c hc
        simp only [List.cons_append, List.mem_cons, List.mem_append, List.not_mem_nil, or_false] at hc
        rcases hc with rfl | hc | rfl
        · exact I.sentinel (h ▸ hctx.method)
        · exact ha.1 c hc
        · exact I.sentinel (h ▸ hctx.method)
      · intro c hc hnf
        rw [hcoll.2]
        have hs : ((ctx.withVars new).effective Verif.sentinel).nonfinite = false := rfl
        simp only [List.cons_append, List.mem_cons, List.mem_append, List.not_mem_nil, or_false] at hc
        rcases hc with rfl | hc | rfl
        · rw [hs] at hnf; cases hnf
        · refine List.mem_filter.2 ⟨hc, ?_⟩
          simp only [decide_eq_true_eq]
          intro hcm
          rw [Ctx.effective, hcm] at hnf
          cases hnf
        · rw [hs] at hnf; cases hnf
  | variant opts lo hi sep m =>
    have hopts : ∀ p ∈ opts, I.Q ctx.being p.1 := fun p h => I.option hc h
    have hb : ∀ (lo hi : Int), ∀ p ∈ boundCombos (opts.map (·.1)) lo hi, ∀ c ∈ p.2, I.Q ctx.being c := by
      intro lo hi p hp c hcp
      simp only [boundCombos, List.mem_flatMap, List.mem_map] at hp
      obtain ⟨b, -, cs, hcs, rfl⟩ := hp
      obtain ⟨q, hq, rfl⟩ := List.mem_map.1 ((mem_getCombos.1 hcs).2.2 c hcp)
      exact hopts q hq
    have hcyc : ctx.method ≠ .comb → ∀ l : List (Nat × List Cmd), (∀ p ∈ l, ∀ c ∈ p.2, I.Q ctx.being c) →
        I.WAL (l.map fun p => Arr.start ctx p.2) := by
      intro hm l hl
      induction l with
      | nil => exact .nil
      | cons a l ih => exact .cons (.start hctx hm (hl a (by simp))) (ih fun p h => hl p (by simp [h]))
    have hsel : ctx.method = .comb → opts ≠ [] → ¬ SingleWild opts →
        ∃ p l, boundCombos (opts.map (·.1)) (adjustBounds opts.length lo hi).1
          (adjustBounds opts.length lo hi).2 = p :: l ∧ p.1 ≤ 1 := by
      intro hm hne hs
      have : 0 ≤ max lo hi ∧ (opts.length ≤ 1 ∨ min lo hi ≤ 1) := by
        by_contra h
        exact hr.rt (I.selectErr hc (hm ▸ hctx.method) hs h)
      have hlen := List.length_pos_of_ne_nil hne
      refine boundCombos_head (by simpa using hne) ?_ ?_ ?_ <;>
        simp only [adjustBounds, normBounds] <;> omega
    have hcv : ctx.method = .comb → opts ≠ [] → ¬ SingleWild opts → I.WG k (.combVar ctx sep []
        (boundCombos (opts.map (·.1)) (adjustBounds opts.length lo hi).1 (adjustBounds opts.length lo hi).2)) :=
      fun hm hne hs => .combVar (hcomb hm) hctx (fun p hp => ⟨boundCombos_length p hp, hb _ _ p hp⟩)
        (fun _ => ⟨rfl, hsel hm hne hs⟩)
    dsimp only
    split
    · exact absurd (I.optionsErr hc) hr.rt
    · rename_i path m' v wt
      have hw := hopts _ (List.mem_cons_self ..)
      unfold Recs.wildcardToVariant
      refine Errs.bind (P := fun c => I.Q ctx.being c ∧ ∀ n d, c ≠ .access n d) ?_
        fun v hv => .pure (.start hctx hv.1 hv.2 hl)
      refine (sampleFirst_W hr hctx (wild_path_F hw) (wild_filled hr hw)).bind fun wc hwc => ?_
      refine (getValues_F hw hwc).bind fun items hitems => ?_
      have hmp := mapM_parse_F (b := ctx.being) (l := iterateWeighted items) (fun v hv => by
        obtain ⟨i, hi', rfl⟩ := mem_iterateWeighted hv
        exact wild_values_F hw hwc hitems i hi')
      refine (Errs.lift hmp.1 hmp.2).bind fun opts ho =>
        .pure ⟨I.expand hc hwc hitems ?_ ho.2, by simp [Cmd.mkVariant]⟩
      intro o ho'
      obtain ⟨h1, v, hv, h2⟩ := ho.1 o ho'
      obtain ⟨i, hi', rfl⟩ := mem_iterateWeighted hv
      exact ⟨h1, i, hi', h2⟩
    · rename_i c wt hnw
      have hs : ¬ SingleWild [(c, wt)] := by
        rintro ⟨p, m, v, w, he⟩
        simp only [List.cons.injEq, Prod.mk.injEq, and_true] at he
        exact hnw _ _ _ he.1
      cases h : ctx.method with
      | random =>
        have := mkGen_W (k := k) hctx (hopts _ (List.mem_cons_self ..)) (fun _ => .inl (by simp [h]))
        exact .lift this.1 this.2
      | cyc => exact .pure (.cycVar (hcyc (by simp [h]) _ (hb _ _)))
      | comb => exact .pure (hcv h (by simp) hs)
    · rename_i h1 h2 h3
      have hl2 : 2 ≤ opts.length := by
        match opts, h1, h3 with
        | [], h1, _ => exact absurd rfl h1
        | [(c, wt)], _, h3 => exact absurd rfl (h3 c wt)
        | _ :: _ :: _, _, _ => simp
      cases h : ctx.method with
      | random =>
        refine .pure (.randVar hctx (by simp [h]) hopts hl2 ?_)
        by_cases hd : 0 ≤ max lo hi ∧ DrawableWeights (opts.map (·.2)) (max 0 (min (max lo hi) opts.length))
        · exact .inl hd
        · exact .inr (I.weightsErr hc (h ▸ hctx.method) hl2 hd)
      | cyc => exact .pure (.cycVar (hcyc (by simp [h]) _ (hb _ _)))
      | comb =>
        refine .pure (hcv h (by intro e; simp [e] at hl2) ?_)
        rintro ⟨p, m, v, w, he⟩
        simp [he] at hl2
  | wild path m vars =>
    refine (sampleFirst_W hr hctx (wild_path_F hc) (wild_filled hr hc)).bind fun wc hwc => ?_
    refine (getValues_F hc hwc).bind fun vals hvals => ?_
    have hctx' : I.COK (ctx.withVars vars) := hctx.withVars fun b hb => I.param hc hb
    by_cases hv : vals.isEmpty = true
    · simp only [hv, if_true]
      unfold Recs.fallback
      refine Errs.bind (P := fun _ => True) ?_ fun v _ => .pure .rep
      cases path with
      | inl t => exact .pure trivial
      | inr c => exact (sampleFirst_W hr hctx' (p := .inr c) (wild_path_F hc) (wild_filled hr hc)).weaken fun _ _ => trivial
    · simp only [hv]
      have hne : vals ≠ [] := by simpa using hv
      have hmm : ctx.method ≠ .random → I.MM .cyc ∨ I.MM .comb := by
        intro h
        have := hctx.method
        cases hm : ctx.method with
        | random => exact absurd hm h
        | cyc => rw [hm] at this; exact .inl this
        | comb => rw [hm] at this; exact .inr this
      have hiw : ctx.method ≠ .random → ∀ v ∈ iterateWeighted vals, I.TextOK ctx.being v ∧ v ≠ [] := fun h v hv => by
        obtain ⟨i, hi', rfl⟩ := mem_iterateWeighted hv
        exact ⟨wild_values_F hc hwc hvals i hi', fun e => hr.rt (I.contentErr hc (hmm h) hwc hvals hi' e)⟩
      have hin : ctx.method ≠ .random → iterateWeighted vals ≠ [] := fun h e =>
        hr.rt (I.listedErr hc (hmm h) hwc hvals hne e)
      cases h : ctx.method with
      | random =>
        refine .pure (.randWild hctx' (by simp [Ctx.withVars, h]) hne (wild_values_F hc hwc hvals) (by simp) ?_)
        by_cases hd : ¬ VariedWeights vals ∨ DrawableItems vals
        · exact .inl hd
        · push Not at hd
          exact .inr (I.itemsErr hc (h ▸ hctx.method) hwc hvals hd.1 hd.2)
      | comb => exact .pure (.combWild (hcomb h) hctx' (hiw (by simp [h])) (fun _ => hin (by simp [h])) .done)
      | cyc =>
        simp only [Bool.false_eq_true, if_false]
        have := sampleGens_W hctx' (by simp [Ctx.withVars, h]) (hiw (by simp [h]))
        exact (Errs.lift this.1 this.2).bind fun gs hgs =>
          .pure (.cycWild (fun e => hin (by simp [h]) (hgs.2 e)) hgs.1)
  | assign => exact .raise (I.assignErr hc)
  | access n d => exact absurd rfl (hn n d)
  | wrap wr inn m =>
    cases h : ctx.method with
    | random =>
      have h1 := mkGen_W (k := .live) hctx (I.wrapper hc) (fun _ => .inl (by simp [h]))
      have h2 := mkGen_W (k := .live) hctx (I.inner hc) (fun _ => .inl (by simp [h]))
      exact (Errs.lift h1.1 h1.2).bind fun g hg => (Errs.lift h2.1 h2.2).bind fun g' hg' => .pure (.zipWrap hg hg')
    | cyc => exact .raise (I.wrapErr hc (h ▸ hctx.method))
    | comb =>
      have hw : wr.truthy = true := by
        by_contra he
        exact hr.rt (I.emptyWrapErr hc (h ▸ hctx.method) (.inl (by simpa using he)))
      have hi : inn.truthy = true := by
        by_contra he
        exact hr.rt (I.emptyWrapErr hc (h ▸ hctx.method) (.inr (by simpa using he)))
      have h1 := sampleGen_W (p := .inr wr) (k := k) hctx (I.wrapper hc) (.inr hw) hl
      exact (Errs.lift h1.1 h1.2).bind fun wg hwg => .pure (.combWrap (hcomb h) hctx (I.inner hc) hi hwg)

theorem stepG_W {k : Kind} {g : Gen} (hg : I.WG k g) : Errs I.S (Post (I.WG k.next) k) (stepG E r g) := by
  cases hg with
  | done => exact .pure rfl
  | start hctx hc hn hl =>
    rename_i ctx c
    have key : Errs I.S (Post (I.WG k.next) k) (do let g ← startG E r ctx c; r.G g) :=
      (startG_W hr hctx hc hn hl).bind fun g hg => hr.G k g hg
    cases c with
    | lit t m =>
      simp only [stepG]
      cases h : ctx.method with
      | comb =>
        have : k.next = .any := by
          cases k with
          | live => exact absurd h (hl rfl)
          | _ => rfl
        refine .pure ?_
        show I.WG k.next .done
        rw [this]; exact .done
      | random => exact .pure .rep
      | cyc => exact .pure .rep
    | _ => exact key
  | rep => exact .pure .rep
  | seqNF h => exact (rotate_W hr h).bind fun x hx => .pure (.seqNF hx)
  | randVar hctx hm hopts hl hd =>
    rename_i ctx opts lo hi sep
    simp only [stepG]
    have hb : 0 ≤ max lo hi → (adjustBounds opts.length lo hi).1 ≤ (adjustBounds opts.length lo hi).2 ∧
        0 ≤ (adjustBounds opts.length lo hi).1 ∧
        (adjustBounds opts.length lo hi).2 = max 0 (min (max lo hi) opts.length) ∧
        max 0 (min (max (adjustBounds opts.length lo hi).1 (adjustBounds opts.length lo hi).2)
          opts.length) = max 0 (min (max lo hi) opts.length) := by
      intro h0
      simp only [adjustBounds, normBounds]; omega
    refine Errs.bind (P := fun k => (adjustBounds opts.length lo hi).1 ≤ k) ?_ fun n hn => ?_
    · intro w
      refine ⟨fun k w' h => (randint_ok h).1, fun e w' h => ?_⟩
      cases randint_err h
      rcases hd with hd | hd
      · obtain ⟨k, w1, hk⟩ := randint_draws E.rng (hb hd.1).1 w
        rw [hk] at h; cases h
      · exact hd
    · refine Errs.bind (P := fun sel => ∀ c ∈ sel, I.Q ctx.being c) ?_ fun sel hsel => ?_
      · intro w
        refine ⟨fun sel w' h c hcs => ?_, fun e w' h => ?_⟩
        · obtain ⟨p, hp, rfl⟩ := List.mem_map.1 ((choose_ok h).1.subset hcs)
          exact hopts p hp
        · cases choose_err h
          rcases hd with hd | hd
          · obtain ⟨sel, w2, hsel⟩ := choose_draws E.rng (opts.map (·.1)) (opts.map (·.2))
              (min (adjustBounds opts.length lo hi).2 n) w (by simp) (by simpa using hl)
              ⟨hd.2.1, by have := hd.2.2; have := hb hd.1; omega⟩
            rw [hsel] at h; cases h
          · exact hd
      · have hg := mkGens_W hctx hm hsel
        have hnext : I.WG k.next (.randVar ctx opts (adjustBounds opts.length lo hi).1
            (adjustBounds opts.length lo hi).2 sep) := by
          refine .randVar hctx hm hopts hl ?_
          rcases hd with hd | hd
          · have := hb hd.1
            refine .inl ⟨by omega, ?_⟩
            rw [this.2.2.2]
            exact hd.2
          · exact .inr hd
        refine (Errs.lift hg.1 hg.2).bind fun gs hgs => ?_
        cases gs with
        | nil => exact .pure hnext
        | cons g gs => exact (rotate_W hr hgs).bind fun _ _ => .pure hnext
  | randWild hctx hm hne hi hbuf hd =>
    rename_i ctx items buf
    simp only [stepG]
    refine Errs.bind (P := fun x => x.1 ∈ items.map Item.content ∧ ∀ y ∈ x.2, y ∈ items.map Item.content) ?_
      fun x hx => ?_
    · intro w
      refine ⟨fun x w' h => weightedNext_ok h hbuf, fun e w' h => ?_⟩
      obtain ⟨rfl, h1, h2⟩ := weightedNext_err hne h
      rcases hd with (hd | hd) | hd
      · exact absurd h1 hd
      · exact absurd hd h2
      · exact hd
    · obtain ⟨v, buf'⟩ := x
      obtain ⟨i, hi', rfl⟩ := List.mem_map.1 hx.1
      have hg := sampleGen_W (p := .inl i.content) (k := .any) hctx (hi i hi') (.inl rfl) (fun h => by cases h)
      refine (Errs.lift hg.1 hg.2).bind fun g hg => (hr.G .any g hg).bind fun y _ => ?_
      cases y with
      | none => exact hr.G k _ (.randWild hctx hm hne hi hx.2 hd)
      | some y => exact .pure (.randWild hctx hm hne hi hx.2 hd)
  | zipWrap h1 h2 =>
    refine (hr.G .live _ h1).bind fun x hx => ?_
    cases x with
    | none => cases hx
    | some x =>
      refine (hr.G .live _ h2).bind fun y hy => ?_
      cases y with
      | none => cases hy
      | some y => exact .pure (.zipWrap hx hy)
  | cycVar h =>
    cases h with
    | nil => exact .diverge
    | cons h h' =>
      refine (hr.A _ h).bind fun x hx => ?_
      obtain ⟨y, rfl, hy⟩ := hx
      exact .pure (.cycVar (h'.append (.cons hy .nil)))
  | cycWild hne h =>
    cases h with
    | nil => exact absurd rfl hne
    | cons h h' =>
      exact (next!_W hr (k := .live) (by simp) h).bind fun x hx =>
        .pure (.cycWild (by simp) (h'.append (.cons hx .nil)))
  | combSeq hk h1 h2 =>
    have hkn : k.next = .any := by cases k <;> simp_all [Kind.next]
    refine (hr.S k _ _ h1 h2).bind fun x hx => ?_
    obtain ⟨coll, _ | ⟨vs, fr⟩⟩ := x
    · exact .pure hx.2.2
    · obtain ⟨hx1, hx2, hx3⟩ := hx
      refine .pure ?_
      show I.WG k.next _
      rw [hkn]
      exact .combSeq (by simp) hx1 (by dsimp only at hx2; rw [hx2]; exact hx3)
  | combVar hk hctx hp hf =>
    rename_i ctx sep seen pend
    cases pend with
    | nil =>
      refine .pure ?_
      show k = .any
      cases k with
      | any => rfl
      | live => exact absurd rfl hk
      | fresh => obtain ⟨_, _, _, h, _⟩ := hf rfl; cases h
    | cons p pend =>
      have h := hp p (by simp)
      refine hr.G k _ (.combVarIn hk hctx (fun q h => hp q (by simp [h])) ?_ (h.1 ▸ .start hk hctx h.2))
      intro e
      obtain ⟨h1, _, _, h2, h3⟩ := hf e
      cases h2
      exact ⟨h1, h3⟩
  | combVarIn hk hctx hp hf hfr =>
    rename_i ctx sep seen pend b fr
    have hkn : k.next = .any := by cases k <;> simp_all [Kind.next]
    refine (hr.P k b _ hfr).bind fun x hx => ?_
    cases x with
    | none =>
      have hka : k = .any := hx.1
      subst hka
      exact hr.G _ _ (.combVar hk hctx hp (fun h => by cases h))
    | some x =>
      obtain ⟨vs, fr'⟩ := x
      have hlen := hx.2 _ rfl
      have hfr' : I.WP .any b fr' := hx.1
      dsimp only at hlen ⊢
      split
      · refine .pure ?_
        show I.WG k.next _
        rw [hkn]
        exact .combVarIn (by simp) hctx hp (fun h => by cases h) hfr'
      · rename_i hd
        have hka : k = .any := by
          cases k with
          | any => rfl
          | live => exact absurd rfl hk
          | fresh =>
            obtain ⟨rfl, hb⟩ := hf rfl
            refine absurd ⟨?_, by simp⟩ hd
            match vs, hlen with
            | [], hlen => exact hlen
            | [v], hlen => simpa [dedupe, dedupeAux] using hlen
            | _ :: _ :: _, hlen => simp at hlen; omega
        subst hka
        exact hr.G _ _ (.combVarIn hk hctx hp (fun h => by cases h) hfr')
  | combWild hk hctx hv hf hcur =>
    rename_i ctx vals cur
    have hkn : k.next = .any := by cases k <;> simp_all [Kind.next]
    refine (hr.G .any _ hcur).bind fun x hx => ?_
    cases x with
    | some x =>
      refine .pure ?_
      show I.WG k.next _
      rw [hkn]
      exact .combWild (by simp) hctx hv (fun h => by cases h) hx
    | none =>
      cases vals with
      | nil =>
        refine .pure ?_
        show k = .any
        cases k with
        | any => rfl
        | live => exact absurd rfl hk
        | fresh => exact absurd rfl (hf rfl)
      | cons v vals =>
        have hvs : ∀ v ∈ vals, I.TextOK ctx.being v ∧ v ≠ [] := fun x h => hv x (by simp [h])
        have hg := sampleGen_W (p := .inl v) (k := k) hctx (hv v (by simp)).1 (.inr (hv v (by simp)).2)
          (fun e => absurd e hk)
        refine (Errs.lift hg.1 hg.2).bind fun g hg => hr.G k _ ?_
        cases k with
        | any => exact .combWild hk hctx hvs (fun h => by cases h) hg
        | fresh => exact .combWildIn hctx hvs hg
        | live => exact absurd rfl hk
  | combWildIn hctx hv hcur =>
    refine (hr.G .fresh _ hcur).bind fun x hx => ?_
    cases x with
    | none => cases hx
    | some x => exact .pure (.combWild (by simp [Kind.next]) hctx hv (fun h => by cases h) hx)
  | combWrap hk hctx hi ht hw =>
    refine (hr.G k _ hw).bind fun x hx => ?_
    cases x with
    | none => exact .pure hx
    | some x =>
      have hkn : k.next = .any := by cases k <;> simp_all [Kind.next]
      have hg := sampleGen_W (p := .inr _) (k := k) hctx hi (.inr ht) (fun e => absurd e hk)
      exact (Errs.lift hg.1 hg.2).bind fun g hg =>
        hr.G k _ (.combWrapIn hk hctx hi ht (by have : I.WG k.next x.2 := hx; rwa [hkn] at this) hg)
  | combWrapIn hk hctx hi ht hw hig =>
    have hkn : k.next = .any := by cases k <;> simp_all [Kind.next]
    refine (hr.G k _ hig).bind fun x hx => ?_
    cases x with
    | none =>
      have hka : k = .any := hx
      subst hka
      exact hr.G _ _ (.combWrap hk hctx hi ht hw)
    | some x =>
      refine .pure ?_
      have hx : I.WG k.next x.2 := hx
      show I.WG k.next _
      rw [hkn] at hx ⊢
      exact .combWrapIn (by simp) hctx hi ht hw hx
  | squash h =>
    refine (hr.G k _ h).bind fun x hx => ?_
    cases x with
    | none => exact .pure hx
    | some x => exact .pure (.squash hx)

theorem stepA_W {a : Arr} (ha : I.WA a) : Errs I.S (fun x => ∃ y, x = some y ∧ I.WA y.2) (stepA E r a) := by
  cases ha with
  | nil => exact .pure ⟨_, rfl, .nil⟩
  | start hctx hm hc =>
    rename_i ctx combo
    cases combo with
    | nil => exact .pure ⟨_, rfl, .nil⟩
    | cons c cs =>
      have hg := mkGen_W (k := .live) hctx (hc c (by simp)) (fun _ => .inl hm)
      exact (Errs.lift hg.1 hg.2).bind fun g hg =>
        hr.A _ (.node hg (.start hctx hm fun c h => hc c (by simp [h])))
  | node h1 h2 =>
    refine (hr.A _ h2).bind fun x hx => ?_
    obtain ⟨y, rfl, hy⟩ := hx
    refine (hr.G .live _ h1).bind fun z hz => ?_
    cases z with
    | none => cases hz
    | some z => exact .pure ⟨_, rfl, .node hz hy⟩

theorem stepS_W {k : Kind} {coll : Coll} {fr : SFrame} (hcoll : I.WC coll) (hfr : I.WS (coll.map (·.1)) k fr) :
    Errs I.S (fun x => I.WC x.1 ∧ x.1.map (·.1) = coll.map (·.1) ∧ Post (I.WS (coll.map (·.1)) .any) k x.2)
      (stepS E r coll fr) := by
  cases hfr with
  | done => exact .pure ⟨hcoll, rfl, rfl⟩
  | start hkl hctx hc hk =>
    rename_i ctx cs
    cases cs with
    | nil => exact .pure ⟨hcoll, rfl, .done⟩
    | cons c cs =>
      have hcs : ∀ c ∈ cs, I.Q ctx.being c := fun c h => hc c (by simp [h])
      have hks : ∀ c ∈ cs, (ctx.effective c).nonfinite = true → c ∈ coll.map (·.1) :=
        fun c h => hk c (by simp [h])
      simp only [stepS]
      split
      · rename_i hnf
        exact hr.S k _ _ hcoll (.nf (hk c (by simp) hnf) (.start hkl hctx hcs hks))
      · have hg := mkGen_W (k := k) hctx (hc c (by simp)) (fun h => absurd h hkl)
        exact (Errs.lift hg.1 hg.2).bind fun g hg => hr.S _ _ _ hcoll (.fin hkl hctx hcs hks hg)
  | nf hk h =>
    refine (hr.S k _ _ hcoll h).bind fun x hx => ?_
    obtain ⟨coll', _ | ⟨vs, rest'⟩⟩ := x
    · exact .pure ⟨hx.1, hx.2.1, hx.2.2⟩
    · obtain ⟨h1, h2, h3⟩ := hx
      dsimp only at h1 h2 h3 ⊢
      refine (getValue_W hr h1 (h2 ▸ hk)).bind fun y hy => ?_
      obtain ⟨_ | v, coll''⟩ := y
      · exact .pure ⟨hy.1, hy.2.trans h2, .nf hk h3⟩
      · exact .pure ⟨hy.1, hy.2.trans h2, .nf hk h3⟩
  | fin hkl hctx hc hk hg =>
    have hkn : k.next = .any := by cases k <;> simp_all [Kind.next]
    refine (hr.G k _ hg).bind fun x hx => ?_
    cases x with
    | none => exact .pure ⟨hcoll, rfl, hx⟩
    | some x =>
      have hx : I.WG k.next x.2 := hx
      rw [hkn] at hx
      exact hr.S k _ _ hcoll (.finIn hctx hc hk hx (.start hkl hctx hc hk))
  | finIn hctx hc hk hg hcur =>
    refine (hr.S k _ _ hcoll hcur).bind fun x hx => ?_
    obtain ⟨coll', _ | ⟨vs, cur'⟩⟩ := x
    · obtain ⟨h1, h2, h3⟩ := hx
      have h3 : k = .any := h3
      subst h3
      dsimp only at h1 h2
      have := hr.S .any coll' _ h1 (.fin (by simp) hctx hc (h2 ▸ hk) hg)
      rw [h2] at this
      exact this
    · exact .pure ⟨hx.1, hx.2.1, .finIn hctx hc hk hg hx.2.2⟩

theorem stepP_W {k : Kind} {b : Nat} {fr : PFrame} (hfr : I.WP k b fr) :
    Errs I.S (fun x => Post (I.WP .any b) k x ∧ ∀ y, x = some y → y.1.length = b) (stepP E r fr) := by
  cases hfr with
  | done => exact .pure ⟨rfl, by simp⟩
  | start hkl hctx hc =>
    rename_i ctx cs
    cases cs with
    | nil => exact .pure ⟨.done, by simp⟩
    | cons c cs =>
      have hcs : ∀ c ∈ cs, I.Q ctx.being c := fun c h => hc c (by simp [h])
      simp only [stepP]
      by_cases hnf : (ctx.effective c).nonfinite = true
      · have hg := mkGen_W (k := .live) hctx (hc c (by simp)) (fun _ => .inr hnf)
        refine (Errs.lift hg.1 hg.2).bind fun g hg => ?_
        rw [if_pos hnf]
        exact hr.P k _ _ (.nf hg (.start hkl hctx hcs))
      · have hg := mkGen_W (k := k) hctx (hc c (by simp)) (fun h => absurd h hkl)
        refine (Errs.lift hg.1 hg.2).bind fun g hg => ?_
        rw [if_neg hnf]
        exact hr.P k _ _ (.fin hkl hctx hcs hg)
  | nf hg h =>
    refine (hr.P k _ _ h).bind fun x hx => ?_
    cases x with
    | none => exact .pure ⟨hx.1, by simp⟩
    | some x =>
      refine (next!_W hr (k := .live) (by simp) hg).bind fun y hy => .pure ⟨.nf hy hx.1, ?_⟩
      intro z hz
      cases hz
      simp [hx.2 _ rfl]
  | fin hkl hctx hc hg =>
    have hkn : k.next = .any := by cases k <;> simp_all [Kind.next]
    refine (hr.G k _ hg).bind fun x hx => ?_
    cases x with
    | none => exact .pure ⟨hx, by simp⟩
    | some x =>
      have hx : I.WG k.next x.2 := hx
      rw [hkn] at hx
      exact hr.P k _ _ (.finIn hctx hc hx (.start hkl hctx hc))
  | finIn hctx hc hg hcur =>
    refine (hr.P k _ _ hcur).bind fun x hx => ?_
    cases x with
    | none =>
      have hka : k = .any := hx.1
      subst hka
      exact hr.P _ _ _ (.fin (by simp) hctx hc hg)
    | some x =>
      refine .pure ⟨.finIn hctx hc hg hx.1, ?_⟩
      intro z hz
      cases hz
      simp [hx.2 _ rfl]

end

theorem recs_W (hrt : ¬ I.S .runtime) (n : Nat) : I.RecsW (recs E n) := by
  induction n with
  | zero =>
    exact ⟨recs_good E _, hrt, fun _ _ _ => .diverge, fun _ _ => .diverge, fun _ _ _ _ _ => .diverge, fun _ _ _ _ => .diverge⟩
  | succ n ih =>
    exact ⟨recs_good E _, hrt, fun _ _ => stepG_W ih, fun _ => stepA_W ih, fun _ _ _ => stepS_W ih, fun _ _ _ => stepP_W ih⟩

theorem collect_W (hrt : ¬ I.S .runtime) {n k : Nat} {kd : Kind} {g : Gen} {w w' : W} {e : Err} (hg : I.WG kd g)
    (h : (collect E n k g w).2 = .raised e w') : I.S e := by
  induction k generalizing g w kd with
  | zero => cases h
  | succ k ih =>
    have hs := (recs_W hrt n).G kd g hg w
    unfold collect nextG at h
    cases hx : (recs E n).G g w with
    | ok a w1 =>
      rw [hx] at h
      cases a with
      | none => cases h
      | some x => exact ih (hs.1 _ _ hx) h
    | err e1 w1 => rw [hx] at h; cases h; exact hs.2 _ _ hx
    | fuel => rw [hx] at h; cases h

/-- Every exception of an iteration is permitted. -/
theorem samplePrompts_S {n k : Nat} {ctx : Ctx} {p : Prompt} {w w' : W} {e : Err} (hctx : I.COK ctx)
    (hp : I.PromptOK ctx.being p) (h : (samplePrompts E n ctx p k w).2 = .raised e w') : I.S e := by
  by_cases hrt : I.S .runtime
  · exact samplePrompts_F hrt hctx hp h
  · have hs := sampleGen_W (k := .any) hctx hp (.inl rfl) (fun h => by cases h)
    unfold samplePrompts at h
    cases hg : sampleGen E ctx p with
    | error e1 => rw [hg] at h; cases h; exact hs.2 _ hg
    | ok g => rw [hg] at h; exact collect_W hrt (hs.1 _ hg) h

end Inv

end Verif
