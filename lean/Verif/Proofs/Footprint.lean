import Verif.Proofs.WorldSim
import Verif.Spec.Footprint
/-! Sampling depends only on the wildcards the template may ask for. -/

namespace Verif
open Spec
variable {W W' : Type} {E : Env W} {Q : Str → Prop}

/-- The wildcards reachable through parts ask only for names in `Q`. -/
def AsksOnly (E : Env W) (Q : Str → Prop) (c : Cmd) : Prop :=
  ∀ path m v wc, Relation.ReflTransGen (Part E) c (.wild path m v) → Named E path wc → Q wc

/-- The variables of the context stay within `Q`. -/
structure FPCtx (E : Env W) (Q : Str → Prop) (ctx : Ctx) : Prop where
  vars : ∀ b ∈ ctx.vars, AsksOnly E Q b.2

/-- Whatever the text parses to is within `Q`. -/
def FPText (E : Env W) (Q : Str → Prop) (s : Str) : Prop := ∀ c, E.parse s = .ok c → AsksOnly E Q c

def FPPrompt (E : Env W) (Q : Str → Prop) : Prompt → Prop
  | .inl s => FPText E Q s
  | .inr c => AsksOnly E Q c

theorem wi_part {c c' : Cmd} (h : AsksOnly E Q c) (hp : Part E c c') : AsksOnly E Q c' :=
  fun path m v wc hx => h path m v wc (Relation.ReflTransGen.head hp hx)

theorem within_own {path : Prompt} {m : Option Method} {v : List (Str × Cmd)} {wc : Str}
    (h : AsksOnly E Q (.wild path m v)) (hn : Named E path wc) : Q wc :=
  h path m v wc Relation.ReflTransGen.refl hn

theorem within_lit {t : Str} {m : Option Method} : AsksOnly E Q (.lit t m) := by
  intro path m v wc hc
  rcases Relation.ReflTransGen.cases_head hc with h | ⟨x, h, -⟩
  · cases h
  · cases h

theorem within_variant {opts : List (Cmd × Rat)} {lo hi : Int} {sep : Str} {m : Option Method}
    (h : ∀ p ∈ opts, AsksOnly E Q p.1) : AsksOnly E Q (.variant opts lo hi sep m) := by
  intro path m v wc hc
  rcases Relation.ReflTransGen.cases_head hc with h' | ⟨x, h', h''⟩
  · cases h'
  · cases h' with
    | option hp => exact h _ hp path m v wc h''

mutual
inductive FP (E : Env W) (Q : Str → Prop) : Gen → Prop
  | done : FP E Q .done
  | start {ctx c} : FPCtx E Q ctx → AsksOnly E Q c → FP E Q (.start ctx c)
  | rep {s} : FP E Q (.rep s)
  | seqNF {sep gens} : FPL E Q gens → FP E Q (.seqNF sep gens)
  | randVar {ctx opts lo hi sep} : FPCtx E Q ctx → (∀ p ∈ opts, AsksOnly E Q p.1) → FP E Q (.randVar ctx opts lo hi sep)
  | randWild {ctx items buf} : FPCtx E Q ctx → (∀ i ∈ items, FPText E Q i.content) →
      (∀ x ∈ buf, x ∈ items.map Item.content) → FP E Q (.randWild ctx items buf)
  | zipWrap {wg ig} : FP E Q wg → FP E Q ig → FP E Q (.zipWrap wg ig)
  | cycVar {sep q} : FPAL E Q q → FP E Q (.cycVar sep q)
  | cycWild {q} : FPL E Q q → FP E Q (.cycWild q)
  | combSeq {sep coll fr} : FPC E Q coll → FPS E Q fr → FP E Q (.combSeq sep coll fr)
  | combVar {ctx sep seen pend} : FPCtx E Q ctx → (∀ p ∈ pend, ∀ c ∈ p.2, AsksOnly E Q c) →
      FP E Q (.combVar ctx sep seen pend)
  | combVarIn {ctx sep seen pend b fr} : FPCtx E Q ctx → (∀ p ∈ pend, ∀ c ∈ p.2, AsksOnly E Q c) →
      FPP E Q fr → FP E Q (.combVarIn ctx sep seen pend b fr)
  | combWild {ctx vals cur} : FPCtx E Q ctx → (∀ v ∈ vals, FPText E Q v) → FP E Q cur →
      FP E Q (.combWild ctx vals cur)
  | combWrap {ctx inner wg} : FPCtx E Q ctx → AsksOnly E Q inner → FP E Q wg → FP E Q (.combWrap ctx inner wg)
  | combWrapIn {ctx inner wg w ig} : FPCtx E Q ctx → AsksOnly E Q inner → FP E Q wg → FP E Q ig →
      FP E Q (.combWrapIn ctx inner wg w ig)
  | squash {g} : FP E Q g → FP E Q (.squash g)
inductive FPL (E : Env W) (Q : Str → Prop) : List Gen → Prop
  | nil : FPL E Q []
  | cons {g gs} : FP E Q g → FPL E Q gs → FPL E Q (g :: gs)
inductive FPC (E : Env W) (Q : Str → Prop) : Coll → Prop
  | nil : FPC E Q []
  | cons {c g v cs} : FP E Q g → FPC E Q cs → FPC E Q ((c, g, v) :: cs)
inductive FPA (E : Env W) (Q : Str → Prop) : Arr → Prop
  | done : FPA E Q .done
  | start {ctx combo} : FPCtx E Q ctx → (∀ c ∈ combo, AsksOnly E Q c) → FPA E Q (.start ctx combo)
  | nil : FPA E Q .nil
  | node {g rest} : FP E Q g → FPA E Q rest → FPA E Q (.node g rest)
inductive FPAL (E : Env W) (Q : Str → Prop) : List Arr → Prop
  | nil : FPAL E Q []
  | cons {g gs} : FPA E Q g → FPAL E Q gs → FPAL E Q (g :: gs)
inductive FPS (E : Env W) (Q : Str → Prop) : SFrame → Prop
  | done : FPS E Q .done
  | start {ctx cs} : FPCtx E Q ctx → (∀ c ∈ cs, AsksOnly E Q c) → FPS E Q (.start ctx cs)
  | nf {c rest} : FPS E Q rest → FPS E Q (.nf c rest)
  | fin {ctx rest g} : FPCtx E Q ctx → (∀ c ∈ rest, AsksOnly E Q c) → FP E Q g → FPS E Q (.fin ctx rest g)
  | finIn {ctx rest g v cur} : FPCtx E Q ctx → (∀ c ∈ rest, AsksOnly E Q c) → FP E Q g → FPS E Q cur →
      FPS E Q (.finIn ctx rest g v cur)
inductive FPP (E : Env W) (Q : Str → Prop) : PFrame → Prop
  | done : FPP E Q .done
  | start {ctx cs} : FPCtx E Q ctx → (∀ c ∈ cs, AsksOnly E Q c) → FPP E Q (.start ctx cs)
  | nf {g rest} : FP E Q g → FPP E Q rest → FPP E Q (.nf g rest)
  | fin {ctx rest g} : FPCtx E Q ctx → (∀ c ∈ rest, AsksOnly E Q c) → FP E Q g → FPP E Q (.fin ctx rest g)
  | finIn {ctx rest g v cur} : FPCtx E Q ctx → (∀ c ∈ rest, AsksOnly E Q c) → FP E Q g → FPP E Q cur →
      FPP E Q (.finIn ctx rest g v cur)
end

theorem FPL.append {xs ys : List Gen} (hx : FPL E Q xs) (hy : FPL E Q ys) : FPL E Q (xs ++ ys) := by
  match hx with
  | .nil => exact hy
  | .cons h h' => exact .cons h (FPL.append h' hy)

theorem FPAL.append {xs ys : List Arr} (hx : FPAL E Q xs) (hy : FPAL E Q ys) : FPAL E Q (xs ++ ys) := by
  match hx with
  | .nil => exact hy
  | .cons h h' => exact .cons h (FPAL.append h' hy)

section
variable (hu : ∀ u, E.unknown = some u → AsksOnly E Q u)
include hu

theorem resolves_WI {vars : List (Str × Cmd)} {n : Str} {d : Option Cmd} {c : Cmd}
    (hv : ∀ b ∈ vars, AsksOnly E Q b.2) (hd : ∀ x, d = some x → AsksOnly E Q x)
    (h : Resolves E.unknown vars n d c) : AsksOnly E Q c := by
  cases h with
  | var h _ => exact hv _ (mem_of_lookup h)
  | default _ _ => exact hd _ rfl
  | unknownEmpty _ _ h => exact hu _ h
  | unknownEmptyDefault _ _ h => exact hu _ h
  | unknown _ h => exact hu _ h

theorem chain_WI {vars : List (Str × Cmd)} {being b : List Str} {c c' : Cmd} {o : Outcome}
    (hv : ∀ b ∈ vars, AsksOnly E Q b.2) (hc : AsksOnly E Q c)
    (h : Chain E.unknown vars being c o) (ho : o = .target b c') : AsksOnly E Q c' := by
  induction h with
  | target _ => cases ho; exact hc
  | undefined _ => cases ho
  | loop _ _ => cases ho
  | step hr _ _ ih =>
    exact ih (resolves_WI hu hv (fun x hx => by subst hx; exact wi_part hc .default) hr) ho

theorem mkGen_FP {ctx : Ctx} {c : Cmd} {g : Gen} (hctx : FPCtx E Q ctx) (hc : AsksOnly E Q c)
    (h : mkGen E.unknown ctx c = .ok g) : FP E Q g := by
  obtain ⟨o, ho⟩ := chain_total E.unknown ctx.vars ctx.being c
  rw [mkGen_outcome ho] at h
  obtain ⟨b, c', rfl, rfl⟩ := outcomeGen_ok h
  have := chain_WI hu hctx.vars hc ho rfl
  exact .start ⟨hctx.vars⟩ this

theorem mkGens_FP {ctx : Ctx} {cs : List Cmd} {gs : List Gen} (hctx : FPCtx E Q ctx)
    (hc : ∀ c ∈ cs, AsksOnly E Q c) (h : mkGens E.unknown ctx cs = .ok gs) : FPL E Q gs := by
  induction cs generalizing gs with
  | nil => cases h; exact .nil
  | cons c cs ih =>
    unfold mkGens at h
    cases h1 : mkGen E.unknown ctx c with
    | error e => rw [h1] at h; cases h
    | ok g =>
      rw [h1] at h
      cases h2 : mkGens E.unknown ctx cs with
      | error e => rw [h2] at h; cases h
      | ok gs' =>
        rw [h2] at h; cases h
        exact .cons (mkGen_FP hu hctx (hc c (by simp)) h1) (ih (fun c h => hc c (by simp [h])) h2)

theorem sampleGen_FP {ctx : Ctx} {p : Prompt} {g : Gen} (hctx : FPCtx E Q ctx) (hp : FPPrompt E Q p)
    (h : sampleGen E ctx p = .ok g) : FP E Q g := by
  have key : ∀ c, AsksOnly E Q c → (match mkGen E.unknown ctx c with
        | .error e => .error e
        | .ok g => .ok (if E.ignoreWs then .squash g else g) : Except Err Gen) = .ok g → FP E Q g := by
    intro c hc h
    cases h1 : mkGen E.unknown ctx c with
    | error e => rw [h1] at h; cases h
    | ok g' =>
      rw [h1] at h; cases h
      have := mkGen_FP hu hctx hc h1
      split
      · exact .squash this
      · exact this
  cases p with
  | inl s =>
    simp only [sampleGen] at h
    split at h
    · cases h; exact .done
    · cases h1 : E.parse s with
      | error e => rw [h1] at h; cases h
      | ok c => rw [h1] at h; exact key c (hp c h1) h
  | inr c =>
    simp only [sampleGen] at h
    split at h
    · cases h; exact .done
    · exact key c hp h

theorem sampleGens_FP {ctx : Ctx} {ps : List Str} {gs : List Gen} (hctx : FPCtx E Q ctx)
    (hp : ∀ p ∈ ps, FPText E Q p) (h : sampleGens E ctx ps = .ok gs) : FPL E Q gs := by
  induction ps generalizing gs with
  | nil => cases h; exact .nil
  | cons p ps ih =>
    unfold sampleGens at h
    cases h1 : sampleGen E ctx (.inl p) with
    | error e => rw [h1] at h; cases h
    | ok g =>
      rw [h1] at h
      cases h2 : sampleGens E ctx ps with
      | error e => rw [h2] at h; cases h
      | ok gs' =>
        rw [h2] at h; cases h
        exact .cons (sampleGen_FP hu hctx (p := .inl p) (hp p (by simp)) h1)
          (ih (fun p h => hp p (by simp [h])) h2)

end

/-! ### Simulation -/

variable {R : W → W' → Prop}

structure SimFP (E : Env W) (Q : Str → Prop) (R : W → W' → Prop) (r : Recs W) (s : Recs W') : Prop where
  good : Good E r
  G : ∀ g, FP E Q g → Sim R (After (FP E Q)) (r.G g) (s.G g)
  A : ∀ a, FPA E Q a → Sim R (After (FPA E Q)) (r.A a) (s.A a)
  S : ∀ coll fr, FPC E Q coll → FPS E Q fr →
    Sim R (fun x => FPC E Q x.1 ∧ After (FPS E Q) x.2) (r.S coll fr) (s.S coll fr)
  P : ∀ fr, FPP E Q fr → Sim R (After (FPP E Q)) (r.P fr) (s.P fr)

section
variable (hu : ∀ u, E.unknown = some u → AsksOnly E Q u) {rng' : Rng W'} (hd : SameDraws R E.rng rng')
  {gv' : Str → M W' (List Item)}
  (hgv : ∀ wc, Q wc → ∀ w w', R w w' → SameOutcome R (E.getValues wc w) (gv' wc w'))
  {r : Recs W} {s : Recs W'} (hr : SimFP E Q R r s)

include hgv in
theorem getValues_FP {path : Prompt} {m : Option Method} {v : List (Str × Cmd)} {wc : Str}
    (hc : AsksOnly E Q (.wild path m v)) (hn : Named E path wc) :
    Sim R (ValuesOK E path) (E.getValues wc) (gv' wc) :=
  fun w w' hw => ⟨hgv wc (within_own hc hn) w w' hw, fun _ w1 ha => ⟨wc, hn, w, w1, ha⟩⟩

include hr

theorem next!_FP {g : Gen} (hg : FP E Q g) : Sim R (fun x => FP E Q x.2) (r.next! g) (s.next! g) := by
  unfold Recs.next!
  refine (hr.G g hg).bind fun a ha => ?_
  cases a with
  | none => exact .raise _
  | some x => exact .pure ha

theorem rotate_FP {gs : List Gen} (hg : FPL E Q gs) :
    Sim R (fun x => FPL E Q x.2) (r.rotate gs) (s.rotate gs) := by
  match hg with
  | .nil => exact .pure .nil
  | .cons h h' =>
    unfold Recs.rotate
    exact (next!_FP hr h).bind fun x hx => (rotate_FP h').bind fun y hy => .pure (.cons hx hy)

include hu

theorem sampleFirst_FP {ctx : Ctx} {p : Prompt} (hctx : FPCtx E Q ctx) (hp : FPPrompt E Q p) :
    Sim R (Named E p) (r.sampleFirst E ctx p) (s.sampleFirst (swapWorld E rng' gv') ctx p) := by
  have : Sim R (fun _ => True) (r.sampleFirst E ctx p) (s.sampleFirst (swapWorld E rng' gv') ctx p) := by
    unfold Recs.sampleFirst
    rw [sampleGen_swap]
    exact (Sim.lift fun a ha => sampleGen_FP hu hctx hp ha).bind fun g hg =>
      (next!_FP hr hg).bind fun _ _ => .pure trivial
  exact fun w w' hw => ⟨(this w w' hw).1, fun a w1 ha => ⟨_, sampleFirst_good hr.good ha⟩⟩

theorem assign_FP {ctx : Ctx} (hctx : FPCtx E Q ctx) (name : Str) {value : Cmd} (i o : Bool)
    (hv : AsksOnly E Q value) :
    Sim R (AsksOnly E Q) (r.assign E ctx name value i o)
      (s.assign (swapWorld E rng' gv') ctx name value i o) := by
  unfold Recs.assign
  cases h : (if o = true then none else List.lookup name ctx.vars) with
  | some v =>
    refine .pure ?_
    split at h
    · cases h
    · exact hctx.vars _ (mem_of_lookup h)
  | none =>
    cases i with
    | false => exact .pure hv
    | true =>
      simp only [if_true]
      have key : Sim R (AsksOnly E Q) (do
          let g ← M.lift (mkGen E.unknown ctx value)
          let (v, _) ← r.next! g
          return Cmd.lit v none) (do
          let g ← M.lift (mkGen E.unknown ctx value)
          let (v, _) ← s.next! g
          return Cmd.lit v none) :=
        (Sim.lift fun a ha => mkGen_FP hu hctx hv ha).bind fun g hg =>
          (next!_FP hr hg).bind fun _ _ => .pure within_lit
      cases value <;> first | exact Sim.pure hv | exact key

theorem assigns_FP {ctx : Ctx} (hctx : FPCtx E Q ctx) {cs : List Cmd} (hcs : ∀ c ∈ cs, AsksOnly E Q c) :
    Sim R (fun x => (∀ c ∈ x.1, AsksOnly E Q c) ∧ ∀ b ∈ x.2, AsksOnly E Q b.2)
      (r.assigns E ctx cs) (s.assigns (swapWorld E rng' gv') ctx cs) := by
  induction cs with
  | nil => exact .pure (by simp)
  | cons c cs ih =>
    have ih := ih fun c h => hcs c (by simp [h])
    have hc := hcs c (by simp)
    cases c <;> simp only [Recs.assigns]
    case assign n v i o =>
      refine (assign_FP hu hr hctx n i o (wi_part hc .assigned)).bind fun a ha => ih.bind fun b hb =>
        .pure ⟨hb.1, ?_⟩
      intro x hx
      rcases List.mem_append.1 hx with hx | hx
      · exact hb.2 x hx
      · simp only [List.mem_singleton] at hx; subst hx; exact ha
    all_goals
      refine ih.bind fun b hb => .pure ⟨?_, hb.2⟩
      intro x hx
      rcases List.mem_cons.1 hx with rfl | hx
      · exact hc
      · exact hb.1 x hx

omit hu in
theorem firstValues_FP {l : List (Cmd × Gen)} (h : ∀ p ∈ l, FP E Q p.2) :
    Sim R (FPC E Q) (r.firstValues l) (s.firstValues l) := by
  induction l with
  | nil => exact .pure .nil
  | cons p l ih =>
    obtain ⟨c, g⟩ := p
    unfold Recs.firstValues
    exact (next!_FP hr (h (c, g) (by simp))).bind fun x hx =>
      (ih fun p hp => h p (by simp [hp])).bind fun y hy => .pure (.cons hx hy)

theorem mkColl_FP {ctx : Ctx} (hctx : FPCtx E Q ctx) {cs : List Cmd} (hcs : ∀ c ∈ cs, AsksOnly E Q c) :
    Sim R (FPC E Q) (r.mkColl E ctx cs) (s.mkColl (swapWorld E rng' gv') ctx cs) := by
  unfold Recs.mkColl
  refine (Sim.lift fun gs hgs => mkGens_FP hu hctx hcs hgs).bind fun gs hgs => ?_
  refine firstValues_FP hr ?_
  intro p hp
  have hm : p.2 ∈ gs := (List.of_mem_zip hp).2
  clear hp
  have : ∀ {gs}, FPL E Q gs → ∀ g ∈ gs, FP E Q g := by
    intro gs h
    induction gs with
    | nil => simp
    | cons g gs ih =>
      cases h with
      | cons h1 h2 =>
        intro x hx
        rcases List.mem_cons.1 hx with rfl | hx
        · exact h1
        · exact ih h2 x hx
  exact this hgs _ hm

omit hu in
theorem getValue_FP (c : Cmd) {coll : Coll} (h : FPC E Q coll) :
    Sim R (fun x => FPC E Q x.2) (r.getValue c coll) (s.getValue c coll) := by
  match h with
  | .nil => exact .raise _
  | .cons (c := c') (g := g) (v := v) h1 h2 =>
    unfold Recs.getValue
    by_cases hc : c' = c
    · simp only [hc, if_true]
      refine (hr.G g h1).bind fun x hx => ?_
      cases x with
      | none => exact .pure (.cons .done h2)
      | some x => exact .pure (.cons hx h2)
    · simp only [hc, if_false]
      exact (getValue_FP c h2).bind fun x hx => .pure (.cons h1 hx)

omit hu hr in
theorem mapM_parse_WI {l : List Str} {opts : List (Cmd × Rat)} (hl : ∀ v ∈ l, FPText E Q v)
    (h : l.mapM (fun v => (E.parse v).map (fun c => (c, (1 : Rat)))) = .ok opts) :
    ∀ p ∈ opts, AsksOnly E Q p.1 := by
  induction l generalizing opts with
  | nil => simp [List.mapM_nil] at h; cases h; simp
  | cons v l ih =>
    rw [List.mapM_cons] at h
    cases h1 : E.parse v with
    | error e => rw [h1] at h; cases h
    | ok c =>
      rw [h1] at h
      cases h2 : l.mapM (fun v => (E.parse v).map (fun c => (c, (1 : Rat)))) with
      | error e => rw [h2] at h; cases h
      | ok o =>
        rw [h2] at h; cases h
        intro p hp
        rcases List.mem_cons.1 hp with rfl | hp
        · exact hl v (by simp) c h1
        · exact ih (fun v h => hl v (by simp [h])) h2 p hp

omit hu hr in
theorem wild_values_wi {path : Prompt} {m : Option Method} {v : List (Str × Cmd)}
    (hc : AsksOnly E Q (.wild path m v)) {items : List Item} (hi : ValuesOK E path items) :
    ∀ x ∈ iterateWeighted items, FPText E Q x := by
  intro x hx c hpc
  obtain ⟨i, hi', rfl⟩ := mem_iterateWeighted hx
  obtain ⟨wc, hn, hwc⟩ := hi
  exact wi_part hc (.value hn hwc hi' hpc)

omit hu hr in
theorem wild_path_wi {path : Prompt} {m : Option Method} {v : List (Str × Cmd)}
    (hc : AsksOnly E Q (.wild path m v)) : FPPrompt E Q path := by
  cases path with
  | inl s => exact fun c h => wi_part hc (.pathText h)
  | inr c => exact wi_part hc .path

omit hu hr in
theorem FPCtx.withVars {ctx : Ctx} (h : FPCtx E Q ctx) {new : List (Str × Cmd)}
    (hn : ∀ b ∈ new, AsksOnly E Q b.2) : FPCtx E Q (ctx.withVars new) :=
  ⟨fun b hb => by
    rcases List.mem_append.1 hb with hb | hb
    · exact hn b hb
    · exact h.vars b hb⟩

include hgv

theorem startG_FP {ctx : Ctx} (hctx : FPCtx E Q ctx) {c : Cmd} (hc : AsksOnly E Q c) :
    Sim R (FP E Q) (startG E r ctx c) (startG (swapWorld E rng' gv') s ctx c) := by
  unfold startG
  cases c with
  | lit t m => exact .pure .rep
  | seq toks sep m =>
    refine (assigns_FP hu hr hctx fun c h => wi_part hc (.token h)).bind fun a ha => ?_
    obtain ⟨toks', new⟩ := a
    have hctx' := hctx.withVars ha.2
    have key : Sim R (FP E Q) (do
          let gens ← M.lift (mkGens E.unknown (ctx.withVars new) toks')
          return .seqNF sep gens : M W Gen) (do
          let gens ← M.lift (mkGens E.unknown (ctx.withVars new) toks')
          return .seqNF sep gens) :=
      (Sim.lift fun gs hgs => mkGens_FP hu hctx' ha.1 hgs).bind fun gs hgs =>
        .pure (.seqNF hgs)
    cases h : ctx.method with
    | random => exact key
    | cyc => exact key
    | comb =>
      refine (mkColl_FP hu hr hctx' fun c h => ha.1 c (List.mem_of_mem_filter h)).bind fun coll hcoll =>
        .pure (.combSeq hcoll (.start hctx' ?_))
      intro c hc
      simp only [List.cons_append, List.mem_cons, List.mem_append, List.not_mem_nil, or_false] at hc
      rcases hc with rfl | hc | rfl
      · exact within_lit
      · exact ha.1 c hc
      · exact within_lit
  | variant opts lo hi sep m =>
    have hopts : ∀ p ∈ opts, AsksOnly E Q p.1 := fun p h => wi_part hc (.option h)
    have hb : ∀ (lo hi : Int), ∀ p ∈ boundCombos (opts.map (·.1)) lo hi, ∀ c ∈ p.2, AsksOnly E Q c := by
      intro lo hi p hp c hcp
      simp only [boundCombos, List.mem_flatMap, List.mem_map] at hp
      obtain ⟨b, -, cs, hcs, rfl⟩ := hp
      obtain ⟨q, hq, rfl⟩ := List.mem_map.1 ((mem_getCombos.1 hcs).2.2 c hcp)
      exact hopts q hq
    have hcyc : ∀ l : List (Nat × List Cmd), (∀ p ∈ l, ∀ c ∈ p.2, AsksOnly E Q c) →
        FPAL E Q (l.map fun p => Arr.start ctx p.2) := by
      intro l hl
      induction l with
      | nil => exact .nil
      | cons a l ih => exact .cons (.start hctx (hl a (by simp))) (ih fun p h => hl p (by simp [h]))
    dsimp only
    split
    · exact .pure .done
    · rename_i path m' v wt
      have hw := hopts _ (List.mem_cons_self ..)
      unfold Recs.wildcardToVariant
      refine Sim.bind (P := AsksOnly E Q) ?_ fun v hv => .pure (.start hctx hv)
      refine (sampleFirst_FP hu hr hctx (wild_path_wi hw)).bind fun wc hwc => ?_
      refine (getValues_FP hgv hw hwc).bind fun items hitems => ?_
      refine (Sim.lift fun opts ho => mapM_parse_WI (wild_values_wi hw hitems) ho).bind fun opts ho =>
        .pure (within_variant ho)
    · cases h : ctx.method with
      | random => exact .lift fun g hg => mkGen_FP hu hctx (hopts _ (List.mem_cons_self ..)) hg
      | cyc => exact .pure (.cycVar (hcyc _ (hb _ _)))
      | comb => exact .pure (.combVar hctx (hb _ _))
    · cases h : ctx.method with
      | random => exact .pure (.randVar hctx hopts)
      | cyc => exact .pure (.cycVar (hcyc _ (hb _ _)))
      | comb => exact .pure (.combVar hctx (hb _ _))
  | wild path m vars =>
    refine (sampleFirst_FP hu hr hctx (wild_path_wi hc)).bind fun wc hwc => ?_
    refine (getValues_FP hgv hc hwc).bind fun vals hvals => ?_
    have hctx' : FPCtx E Q (ctx.withVars vars) := hctx.withVars fun b hb => wi_part hc (.param hb)
    by_cases hv : vals.isEmpty = true
    · simp only [hv, if_true]
      unfold Recs.fallback
      refine Sim.bind (P := fun _ => True) ?_ fun v _ => .pure .rep
      cases path with
      | inl t => exact .pure trivial
      | inr c => exact (sampleFirst_FP hu hr hctx' (p := .inr c) (wild_path_wi hc)).weaken fun _ _ => trivial
    · simp only [hv]
      cases h : ctx.method with
      | random =>
        refine .pure (.randWild hctx' ?_ (by simp))
        intro i hi c hpc
        obtain ⟨wc, hn, hwc⟩ := hvals
        exact wi_part hc (.value hn hwc hi hpc)
      | comb => exact .pure (.combWild hctx' (wild_values_wi hc hvals) .done)
      | cyc =>
        simp only [Bool.false_eq_true, if_false, sampleGens_swap]
        exact (Sim.lift fun gs hgs => sampleGens_FP hu hctx' (wild_values_wi hc hvals) hgs).bind
          fun gs hgs => .pure (.cycWild hgs)
  | assign => exact .raise _
  | access => exact .raise _
  | wrap wr inn m =>
    cases h : ctx.method with
    | random =>
      exact (Sim.lift fun g hg => mkGen_FP hu hctx (wi_part hc .wrapper) hg).bind fun wg hwg =>
        (Sim.lift fun g hg => mkGen_FP hu hctx (wi_part hc .inner) hg).bind fun ig hig => .pure (.zipWrap hwg hig)
    | cyc => exact .raise _
    | comb =>
      simp only [sampleGen_swap]
      exact (Sim.lift fun g hg => sampleGen_FP hu hctx (p := .inr wr) (wi_part hc .wrapper) hg).bind
        fun wg hwg => .pure (.combWrap hctx (wi_part hc .inner) hwg)

include hd in
theorem stepG_FP {g : Gen} (hg : FP E Q g) :
    Sim R (After (FP E Q)) (stepG E r g) (stepG (swapWorld E rng' gv') s g) := by
  cases hg with
  | done => exact .pure trivial
  | start hctx hc =>
    rename_i ctx c
    have key : Sim R (After (FP E Q)) (do let g ← startG E r ctx c; r.G g)
        (do let g ← startG (swapWorld E rng' gv') s ctx c; s.G g) :=
      (startG_FP hu hgv hr hctx hc).bind fun g hg => hr.G g hg
    cases c with
    | lit t m =>
      simp only [stepG]
      cases h : ctx.method with
      | comb => exact .pure .done
      | random => exact .pure .rep
      | cyc => exact .pure .rep
    | _ => exact key
  | rep => exact .pure .rep
  | randVar hctx hopts =>
    rename_i ctx opts lo hi sep
    simp only [stepG]
    refine Sim.bind (P := fun _ => True) (fun w w' hw => ⟨randint_sim hd _ _ w w' hw, fun _ _ _ => trivial⟩) fun k _ => ?_
    refine Sim.bind (P := fun sel => ∀ c ∈ sel, AsksOnly E Q c) (fun w w' hw =>
      ⟨chooseWithoutReplacement_sim hd _ _ _ w w' hw, fun sel w1 h c hc => ?_⟩) fun sel hsel => ?_
    · obtain ⟨p, hp, rfl⟩ := List.mem_map.1 ((choose_ok h).1.subset hc)
      exact hopts p hp
    · refine (Sim.lift fun gs hgs => mkGens_FP hu hctx hsel hgs).bind fun gs hgs => ?_
      cases gs with
      | nil => exact .pure (.randVar hctx hopts)
      | cons g gs => exact (rotate_FP hr hgs).bind fun x hx => .pure (.randVar hctx hopts)
  | randWild hctx hi hbuf =>
    rename_i ctx items buf
    simp only [stepG, sampleGen_swap]
    refine Sim.bind (P := fun x => x.1 ∈ items.map Item.content ∧ ∀ y ∈ x.2, y ∈ items.map Item.content)
      (fun w w' hw => ⟨weightedNext_sim hd _ _ w w' hw, fun x w1 h => weightedNext_ok h hbuf⟩) fun x hx => ?_
    obtain ⟨v, buf'⟩ := x
    obtain ⟨i, hi', rfl⟩ := List.mem_map.1 hx.1
    refine (Sim.lift fun g hg => sampleGen_FP hu hctx (p := .inl i.content) (hi i hi') hg).bind fun g hg =>
      (hr.G g hg).bind fun y _ => ?_
    cases y with
    | none => exact hr.G _ (.randWild hctx hi hx.2)
    | some y => exact .pure (.randWild hctx hi hx.2)
  | zipWrap h1 h2 =>
    refine (hr.G _ h1).bind fun x hx => ?_
    cases x with
    | none => exact .pure trivial
    | some x =>
      refine (hr.G _ h2).bind fun y hy => ?_
      cases y with
      | none => exact .pure trivial
      | some y => exact .pure (.zipWrap hx hy)
  | seqNF h => exact (rotate_FP hr h).bind fun x hx => .pure (.seqNF hx)
  | cycVar h =>
    cases h with
    | nil => exact .diverge
    | cons h h' =>
      refine (hr.A _ h).bind fun x hx => ?_
      cases x with
      | none => exact .raise _
      | some x => exact .pure (.cycVar (h'.append (.cons hx .nil)))
  | cycWild h =>
    cases h with
    | nil => exact .pure trivial
    | cons h h' => exact (next!_FP hr h).bind fun x hx => .pure (.cycWild (h'.append (.cons hx .nil)))
  | combSeq h1 h2 =>
    refine (hr.S _ _ h1 h2).bind fun x hx => ?_
    obtain ⟨coll, _ | ⟨vs, fr⟩⟩ := x
    · exact .pure trivial
    · exact .pure (.combSeq hx.1 hx.2)
  | combVar hctx hp =>
    rename_i ctx sep seen pend
    cases pend with
    | nil => exact .pure trivial
    | cons p pend =>
      exact hr.G _ (.combVarIn hctx (fun q h => hp q (by simp [h])) (.start hctx (hp p (by simp))))
  | combVarIn hctx hp hfr =>
    rename_i ctx sep seen pend b fr
    refine (hr.P _ hfr).bind fun x hx => ?_
    cases x with
    | none => exact hr.G _ (.combVar hctx hp)
    | some x =>
      dsimp only
      split
      · exact .pure (.combVarIn hctx hp hx)
      · exact hr.G _ (.combVarIn hctx hp hx)
  | combWild hctx hv hcur =>
    rename_i ctx vals cur
    refine (hr.G _ hcur).bind fun x hx => ?_
    cases x with
    | some x => exact .pure (.combWild hctx hv hx)
    | none =>
      cases vals with
      | nil => exact .pure trivial
      | cons v vals =>
        simp only [sampleGen_swap]
        exact (Sim.lift fun g hg => sampleGen_FP hu hctx (p := .inl v) (hv v (by simp)) hg).bind
          fun g hg => hr.G _ (.combWild hctx (fun x h => hv x (by simp [h])) hg)
  | combWrap hctx hi hw =>
    refine (hr.G _ hw).bind fun x hx => ?_
    cases x with
    | none => exact .pure trivial
    | some x =>
      simp only [sampleGen_swap]
      exact (Sim.lift fun g hg => sampleGen_FP hu hctx (p := .inr _) hi hg).bind
        fun g hg => hr.G _ (.combWrapIn hctx hi hx hg)
  | combWrapIn hctx hi hw hig =>
    refine (hr.G _ hig).bind fun x hx => ?_
    cases x with
    | none => exact hr.G _ (.combWrap hctx hi hw)
    | some x => exact .pure (.combWrapIn hctx hi hw hx)
  | squash h =>
    refine (hr.G _ h).bind fun x hx => ?_
    cases x with
    | none => exact .pure trivial
    | some x => exact .pure (.squash hx)

omit hgv in
theorem stepA_FP {a : Arr} (ha : FPA E Q a) :
    Sim R (After (FPA E Q)) (stepA E r a) (stepA (swapWorld E rng' gv') s a) := by
  cases ha with
  | done => exact .pure trivial
  | nil => exact .pure .nil
  | start hctx hc =>
    rename_i ctx combo
    cases combo with
    | nil => exact .pure .nil
    | cons c cs =>
      exact (Sim.lift fun g hg => mkGen_FP hu hctx (hc c (by simp)) hg).bind fun g hg =>
        hr.A _ (.node hg (.start hctx fun c h => hc c (by simp [h])))
  | node h1 h2 =>
    refine (hr.A _ h2).bind fun x hx => ?_
    cases x with
    | none => exact .pure trivial
    | some x =>
      refine (hr.G _ h1).bind fun y hy => ?_
      cases y with
      | none => exact .pure .done
      | some y => exact .pure (.node hy hx)

omit hgv in
theorem stepS_FP {coll : Coll} {fr : SFrame} (hcoll : FPC E Q coll) (hfr : FPS E Q fr) :
    Sim R (fun x => FPC E Q x.1 ∧ After (FPS E Q) x.2) (stepS E r coll fr)
      (stepS (swapWorld E rng' gv') s coll fr) := by
  cases hfr with
  | done => exact .pure ⟨hcoll, trivial⟩
  | start hctx hc =>
    rename_i ctx cs
    cases cs with
    | nil => exact .pure ⟨hcoll, .done⟩
    | cons c cs =>
      have hcs : ∀ c ∈ cs, AsksOnly E Q c := fun c h => hc c (by simp [h])
      simp only [stepS]
      split
      · exact hr.S _ _ hcoll (.nf (.start hctx hcs))
      · exact (Sim.lift fun g hg => mkGen_FP hu hctx (hc c (by simp)) hg).bind fun g hg =>
          hr.S _ _ hcoll (.fin hctx hcs hg)
  | nf h =>
    refine (hr.S _ _ hcoll h).bind fun x hx => ?_
    obtain ⟨coll', _ | ⟨vs, rest'⟩⟩ := x
    · exact .pure ⟨hx.1, trivial⟩
    · refine (getValue_FP hr _ hx.1).bind fun y hy => ?_
      obtain ⟨_ | v, coll''⟩ := y
      · exact .pure ⟨hy, .nf hx.2⟩
      · exact .pure ⟨hy, .nf hx.2⟩
  | fin hctx hc hg =>
    refine (hr.G _ hg).bind fun x hx => ?_
    cases x with
    | none => exact .pure ⟨hcoll, trivial⟩
    | some x => exact hr.S _ _ hcoll (.finIn hctx hc hx (.start hctx hc))
  | finIn hctx hc hg hcur =>
    refine (hr.S _ _ hcoll hcur).bind fun x hx => ?_
    obtain ⟨coll', _ | ⟨vs, cur'⟩⟩ := x
    · exact hr.S _ _ hx.1 (.fin hctx hc hg)
    · exact .pure ⟨hx.1, .finIn hctx hc hg hx.2⟩

omit hgv in
theorem stepP_FP {fr : PFrame} (hfr : FPP E Q fr) :
    Sim R (After (FPP E Q)) (stepP E r fr) (stepP (swapWorld E rng' gv') s fr) := by
  cases hfr with
  | done => exact .pure trivial
  | start hctx hc =>
    rename_i ctx cs
    cases cs with
    | nil => exact .pure .done
    | cons c cs =>
      have hcs : ∀ c ∈ cs, AsksOnly E Q c := fun c h => hc c (by simp [h])
      simp only [stepP]
      refine (Sim.lift fun g hg => mkGen_FP hu hctx (hc c (by simp)) hg).bind fun g hg => ?_
      split
      · exact hr.P _ (.nf hg (.start hctx hcs))
      · exact hr.P _ (.fin hctx hcs hg)
  | nf hg h =>
    refine (hr.P _ h).bind fun x hx => ?_
    cases x with
    | none => exact .pure trivial
    | some x => exact (next!_FP hr hg).bind fun y hy => .pure (.nf hy hx)
  | fin hctx hc hg =>
    refine (hr.G _ hg).bind fun x hx => ?_
    cases x with
    | none => exact .pure trivial
    | some x => exact hr.P _ (.finIn hctx hc hx (.start hctx hc))
  | finIn hctx hc hg hcur =>
    refine (hr.P _ hcur).bind fun x hx => ?_
    cases x with
    | none => exact hr.P _ (.fin hctx hc hg)
    | some x => exact .pure (.finIn hctx hc hg hx)

end

theorem recs_FP (hu : ∀ u, E.unknown = some u → AsksOnly E Q u) {rng' : Rng W'} (hd : SameDraws R E.rng rng')
    {gv' : Str → M W' (List Item)}
    (hgv : ∀ wc, Q wc → ∀ w w', R w w' → SameOutcome R (E.getValues wc w) (gv' wc w')) (n : Nat) :
    SimFP E Q R (recs E n) (recs (swapWorld E rng' gv') n) := by
  induction n with
  | zero => exact ⟨recs_good E 0, fun _ _ => .diverge, fun _ _ => .diverge, fun _ _ _ _ => .diverge, fun _ _ => .diverge⟩
  | succ n ih =>
    exact ⟨recs_good E (n + 1), fun g hg => stepG_FP hu hd hgv ih hg, fun a ha => stepA_FP hu ih ha,
      fun coll fr h1 h2 => stepS_FP hu ih h1 h2, fun fr h => stepP_FP hu ih h⟩

theorem collect_FP (hu : ∀ u, E.unknown = some u → AsksOnly E Q u) {rng' : Rng W'} (hd : SameDraws R E.rng rng')
    {gv' : Str → M W' (List Item)}
    (hgv : ∀ wc, Q wc → ∀ w w', R w w' → SameOutcome R (E.getValues wc w) (gv' wc w')) (n k : Nat) {g : Gen}
    (hg : FP E Q g) (w : W) (w' : W') (hw : R w w') :
    (collect E n k g w).1 = (collect (swapWorld E rng' gv') n k g w').1 ∧
      SameStop R (collect E n k g w).2 (collect (swapWorld E rng' gv') n k g w').2 := by
  induction k generalizing g w w' with
  | zero => exact ⟨rfl, rfl, hw⟩
  | succ k ih =>
    obtain ⟨h1, h2⟩ := (recs_FP hu hd hgv n).G g hg w w' hw
    simp only [collect, nextG]
    cases hx : (recs E n).G g w with
    | ok a w1 =>
      cases hy : (recs (swapWorld E rng' gv') n).G g w' with
      | ok b w2 =>
        rw [hx, hy] at h1
        obtain ⟨rfl, h3⟩ := h1
        cases a with
        | none => exact ⟨rfl, h3⟩
        | some x =>
          have := ih (h2 _ _ hx) w1 w2 h3
          exact ⟨by dsimp only; rw [this.1], this.2⟩
      | err e w2 => rw [hx, hy] at h1; exact h1.elim
      | fuel => rw [hx, hy] at h1; exact h1.elim
    | err e w1 =>
      cases hy : (recs (swapWorld E rng' gv') n).G g w' with
      | ok b w2 => rw [hx, hy] at h1; exact h1.elim
      | err e w2 => rw [hx, hy] at h1; exact ⟨rfl, h1⟩
      | fuel => rw [hx, hy] at h1; exact h1.elim
    | fuel =>
      cases hy : (recs (swapWorld E rng' gv') n).G g w' with
      | ok b w2 => rw [hx, hy] at h1; exact h1.elim
      | err e w2 => rw [hx, hy] at h1; exact h1.elim
      | fuel => exact ⟨rfl, trivial⟩

end Verif
