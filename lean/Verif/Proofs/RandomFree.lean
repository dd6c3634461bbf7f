import Verif.Proofs.NoComb
import Verif.Spec.RandomFree
/-! Templates without a random part never consult the random source. -/

namespace Verif
open Spec
variable {W W' : Type} {E : Env W}

/-- Context without random parts. -/
structure COK (E : Env W) (ctx : Ctx) : Prop where
  method : ctx.method ≠ .random
  vars : ∀ b ∈ ctx.vars, RandomFree E b.2

/-- Whatever the text parses to is free of random parts. -/
def TextOK (E : Env W) (s : Str) : Prop := ∀ c, E.parse s = .ok c → RandomFree E c

def PromptOK (E : Env W) : Prompt → Prop
  | .inl s => TextOK E s
  | .inr c => RandomFree E c

theorem rf_part {c c' : Cmd} (h : RandomFree E c) (hp : Part E c c') : RandomFree E c' :=
  fun x hx => h x (Relation.ReflTransGen.head hp hx)

theorem rf_own {c : Cmd} (h : RandomFree E c) : c.method ≠ some .random :=
  h c Relation.ReflTransGen.refl

theorem randomFree_lit {s : Str} {m : Option Method} (hm : m ≠ some .random) :
    RandomFree E (.lit s m) := by
  intro c hc
  rcases Relation.ReflTransGen.cases_head hc with rfl | ⟨x, h, -⟩
  · exact hm
  · cases h

theorem randomFree_of {c : Cmd} (hm : c.method ≠ some .random)
    (h : ∀ c', Part E c c' → RandomFree E c') : RandomFree E c := by
  intro x hx
  rcases Relation.ReflTransGen.cases_head hx with rfl | ⟨y, h1, h2⟩
  · exact hm
  · exact h y h1 x h2

mutual
inductive NR (E : Env W) : Gen → Prop
  | done : NR E .done
  | start {ctx c} : COK E ctx → RandomFree E c → NR E (.start ctx c)
  | rep {s} : NR E (.rep s)
  | seqNF {sep gens} : NRL E gens → NR E (.seqNF sep gens)
  | cycVar {sep q} : NRAL E q → NR E (.cycVar sep q)
  | cycWild {q} : NRL E q → NR E (.cycWild q)
  | combSeq {sep coll fr} : NRC E coll → NRS E fr → NR E (.combSeq sep coll fr)
  | combVar {ctx sep seen pend} : COK E ctx → (∀ p ∈ pend, ∀ c ∈ p.2, RandomFree E c) →
      NR E (.combVar ctx sep seen pend)
  | combVarIn {ctx sep seen pend b fr} : COK E ctx → (∀ p ∈ pend, ∀ c ∈ p.2, RandomFree E c) →
      NRP E fr → NR E (.combVarIn ctx sep seen pend b fr)
  | combWild {ctx vals cur} : COK E ctx → (∀ v ∈ vals, TextOK E v) → NR E cur →
      NR E (.combWild ctx vals cur)
  | combWrap {ctx inner wg} : COK E ctx → RandomFree E inner → NR E wg → NR E (.combWrap ctx inner wg)
  | combWrapIn {ctx inner wg w ig} : COK E ctx → RandomFree E inner → NR E wg → NR E ig →
      NR E (.combWrapIn ctx inner wg w ig)
  | squash {g} : NR E g → NR E (.squash g)
inductive NRL (E : Env W) : List Gen → Prop
  | nil : NRL E []
  | cons {g gs} : NR E g → NRL E gs → NRL E (g :: gs)
inductive NRC (E : Env W) : Coll → Prop
  | nil : NRC E []
  | cons {c g v cs} : NR E g → NRC E cs → NRC E ((c, g, v) :: cs)
inductive NRA (E : Env W) : Arr → Prop
  | done : NRA E .done
  | start {ctx combo} : COK E ctx → (∀ c ∈ combo, RandomFree E c) → NRA E (.start ctx combo)
  | nil : NRA E .nil
  | node {g rest} : NR E g → NRA E rest → NRA E (.node g rest)
inductive NRAL (E : Env W) : List Arr → Prop
  | nil : NRAL E []
  | cons {g gs} : NRA E g → NRAL E gs → NRAL E (g :: gs)
inductive NRS (E : Env W) : SFrame → Prop
  | done : NRS E .done
  | start {ctx cs} : COK E ctx → (∀ c ∈ cs, RandomFree E c) → NRS E (.start ctx cs)
  | nf {c rest} : NRS E rest → NRS E (.nf c rest)
  | fin {ctx rest g} : COK E ctx → (∀ c ∈ rest, RandomFree E c) → NR E g → NRS E (.fin ctx rest g)
  | finIn {ctx rest g v cur} : COK E ctx → (∀ c ∈ rest, RandomFree E c) → NR E g → NRS E cur →
      NRS E (.finIn ctx rest g v cur)
inductive NRP (E : Env W) : PFrame → Prop
  | done : NRP E .done
  | start {ctx cs} : COK E ctx → (∀ c ∈ cs, RandomFree E c) → NRP E (.start ctx cs)
  | nf {g rest} : NR E g → NRP E rest → NRP E (.nf g rest)
  | fin {ctx rest g} : COK E ctx → (∀ c ∈ rest, RandomFree E c) → NR E g → NRP E (.fin ctx rest g)
  | finIn {ctx rest g v cur} : COK E ctx → (∀ c ∈ rest, RandomFree E c) → NR E g → NRP E cur →
      NRP E (.finIn ctx rest g v cur)
end

theorem NRL.append {xs ys : List Gen} (hx : NRL E xs) (hy : NRL E ys) : NRL E (xs ++ ys) := by
  match hx with
  | .nil => exact hy
  | .cons h h' => exact .cons h (NRL.append h' hy)

theorem NRAL.append {xs ys : List Arr} (hx : NRAL E xs) (hy : NRAL E ys) : NRAL E (xs ++ ys) := by
  match hx with
  | .nil => exact hy
  | .cons h h' => exact .cons h (NRAL.append h' hy)

theorem effMethod_ne_random {m : Method} (h : m ≠ .random) {o : Option Method} (ho : o ≠ some .random) :
    effMethod m o ≠ .random := by
  rw [effMethod_eq_nest]
  rcases o with _ | o
  · exact h
  · simp only [nest]
    split
    · exact h
    · exact fun e => ho (by rw [e])

theorem mem_of_lookup {l : List (Str × Cmd)} {n : Str} {c : Cmd} (h : l.lookup n = some c) :
    (n, c) ∈ l := by
  induction l with
  | nil => simp at h
  | cons a l ih =>
    obtain ⟨k, v⟩ := a
    simp only [List.lookup_cons] at h
    split at h
    · cases h; rename_i h'; simp at h'; simp [h']
    · simp [ih h]

section
variable (hu : ∀ u, E.unknown = some u → RandomFree E u)
include hu

theorem resolves_RF {vars : List (Str × Cmd)} {n : Str} {d : Option Cmd} {c : Cmd}
    (hv : ∀ b ∈ vars, RandomFree E b.2) (hd : ∀ x, d = some x → RandomFree E x)
    (h : Resolves E.unknown vars n d c) : RandomFree E c := by
  cases h with
  | var h _ => exact hv _ (mem_of_lookup h)
  | default _ _ => exact hd _ rfl
  | unknownEmpty _ _ h => exact hu _ h
  | unknownEmptyDefault _ _ h => exact hu _ h
  | unknown _ h => exact hu _ h

theorem chain_RF {vars : List (Str × Cmd)} {being b : List Str} {c c' : Cmd} {o : Outcome}
    (hv : ∀ b ∈ vars, RandomFree E b.2) (hc : RandomFree E c)
    (h : Chain E.unknown vars being c o) (ho : o = .target b c') : RandomFree E c' := by
  induction h with
  | target _ => cases ho; exact hc
  | undefined _ => cases ho
  | loop _ _ => cases ho
  | step hr _ _ ih =>
    exact ih (resolves_RF hu hv (fun x hx => by subst hx; exact rf_part hc .default) hr) ho

theorem mkGen_NR {ctx : Ctx} {c : Cmd} {g : Gen} (hctx : COK E ctx) (hc : RandomFree E c)
    (h : mkGen E.unknown ctx c = .ok g) : NR E g := by
  obtain ⟨o, ho⟩ := chain_total E.unknown ctx.vars ctx.being c
  rw [mkGen_outcome ho] at h
  obtain ⟨b, c', rfl, rfl⟩ := outcomeGen_ok h
  have := chain_RF hu hctx.vars hc ho rfl
  exact .start ⟨effMethod_ne_random hctx.method (rf_own this), hctx.vars⟩ this

theorem mkGens_NR {ctx : Ctx} {cs : List Cmd} {gs : List Gen} (hctx : COK E ctx)
    (hc : ∀ c ∈ cs, RandomFree E c) (h : mkGens E.unknown ctx cs = .ok gs) : NRL E gs := by
  induction cs generalizing gs with
  | nil => cases h; exact .nil
  | cons c cs ih =>
    unfold mkGens at h
    cases h1 : mkGen E.unknown ctx c with
    | error e => rw [h1] at h; cases h
    | ok g =>
      rw [h1] at h
      cases h2 : mkGens E.unknown ctx cs with
      | error e => rw [h2] at h; cases h
      | ok gs' =>
        rw [h2] at h; cases h
        exact .cons (mkGen_NR hu hctx (hc c (by simp)) h1) (ih (fun c h => hc c (by simp [h])) h2)

theorem sampleGen_NR {ctx : Ctx} {p : Prompt} {g : Gen} (hctx : COK E ctx) (hp : PromptOK E p)
    (h : sampleGen E ctx p = .ok g) : NR E g := by
  have key : ∀ c, RandomFree E c → (match mkGen E.unknown ctx c with
        | .error e => .error e
        | .ok g => .ok (if E.ignoreWs then .squash g else g) : Except Err Gen) = .ok g → NR E g := by
    intro c hc h
    cases h1 : mkGen E.unknown ctx c with
    | error e => rw [h1] at h; cases h
    | ok g' =>
      rw [h1] at h; cases h
      have := mkGen_NR hu hctx hc h1
      split
      · exact .squash this
      · exact this
  cases p with
  | inl s =>
    simp only [sampleGen] at h
    split at h
    · cases h; exact .done
    · cases h1 : E.parse s with
      | error e => rw [h1] at h; cases h
      | ok c => rw [h1] at h; exact key c (hp c h1) h
  | inr c =>
    simp only [sampleGen] at h
    split at h
    · cases h; exact .done
    · exact key c hp h

theorem sampleGens_NR {ctx : Ctx} {ps : List Str} {gs : List Gen} (hctx : COK E ctx)
    (hp : ∀ p ∈ ps, TextOK E p) (h : sampleGens E ctx ps = .ok gs) : NRL E gs := by
  induction ps generalizing gs with
  | nil => cases h; exact .nil
  | cons p ps ih =>
    unfold sampleGens at h
    cases h1 : sampleGen E ctx (.inl p) with
    | error e => rw [h1] at h; cases h
    | ok g =>
      rw [h1] at h
      cases h2 : sampleGens E ctx ps with
      | error e => rw [h2] at h; cases h
      | ok gs' =>
        rw [h2] at h; cases h
        exact .cons (sampleGen_NR hu hctx (p := .inl p) (hp p (by simp)) h1)
          (ih (fun p h => hp p (by simp [h])) h2)

end

/-! ### Simulation -/

variable {R : W → W' → Prop}

/-- From related worlds, `x` and `y` do the same, end in related worlds, and results satisfy `P`. -/
def Sim {α : Type} (R : W → W' → Prop) (P : α → Prop) (x : M W α) (y : M W' α) : Prop :=
  ∀ w w', R w w' → SameOutcome R (x w) (y w') ∧ ∀ a w1, x w = .ok a w1 → P a

section sim
variable {α β : Type}

theorem Sim.pure {P : α → Prop} {a : α} (h : P a) :
    Sim R P (Pure.pure a : M W α) (Pure.pure a : M W' α) := by
  intro w w' hw
  refine ⟨⟨rfl, hw⟩, fun b w1 hb => ?_⟩
  simp only [M.pure_eq, Res.ok.injEq] at hb
  exact hb.1 ▸ h

theorem Sim.raise {P : α → Prop} (e : Err) : Sim R P (M.raise e : M W α) (M.raise e : M W' α) :=
  fun _ _ hw => ⟨⟨rfl, hw⟩, fun _ _ h => by cases h⟩

theorem Sim.diverge {P : α → Prop} : Sim R P (M.diverge : M W α) (M.diverge : M W' α) :=
  fun _ _ _ => ⟨trivial, fun _ _ h => by cases h⟩

theorem Sim.lift {P : α → Prop} {x : Except Err α} (h : ∀ a, x = .ok a → P a) :
    Sim R P (M.lift x : M W α) (M.lift x : M W' α) := by
  cases x with
  | ok a => exact .pure (h a rfl)
  | error e => exact .raise e

theorem Sim.bind {P : α → Prop} {Q : β → Prop} {x : M W α} {y : M W' α} {f : α → M W β}
    {g : α → M W' β} (hx : Sim R P x y) (hf : ∀ a, P a → Sim R Q (f a) (g a)) :
    Sim R Q (x >>= f) (y >>= g) := by
  intro w w' hw
  obtain ⟨h1, h2⟩ := hx w w' hw
  rw [M.bind_eq, M.bind_eq]
  cases hxw : x w with
  | ok a w1 =>
    cases hyw : y w' with
    | ok b w2 =>
      rw [hxw, hyw] at h1
      obtain ⟨rfl, h3⟩ := h1
      exact hf a (h2 a w1 hxw) w1 w2 h3
    | err e w2 => rw [hxw, hyw] at h1; exact h1.elim
    | fuel => rw [hxw, hyw] at h1; exact h1.elim
  | err e w1 =>
    cases hyw : y w' with
    | ok b w2 => rw [hxw, hyw] at h1; exact h1.elim
    | err e w2 => rw [hxw, hyw] at h1; exact ⟨h1, fun _ _ h => by cases h⟩
    | fuel => rw [hxw, hyw] at h1; exact h1.elim
  | fuel =>
    cases hyw : y w' with
    | ok b w2 => rw [hxw, hyw] at h1; exact h1.elim
    | err e w2 => rw [hxw, hyw] at h1; exact h1.elim
    | fuel => exact ⟨trivial, fun _ _ h => by cases h⟩

theorem Sim.weaken {P Q : α → Prop} {x : M W α} {y : M W' α} (h : Sim R P x y)
    (hpq : ∀ a, P a → Q a) : Sim R Q x y :=
  fun w w' hw => ⟨(h w w' hw).1, fun a w1 ha => hpq a ((h w w' hw).2 a w1 ha)⟩

end sim

structure SimNR (E : Env W) (R : W → W' → Prop) (r : Recs W) (s : Recs W') : Prop where
  good : Good E r
  G : ∀ g, NR E g → Sim R (After (NR E)) (r.G g) (s.G g)
  A : ∀ a, NRA E a → Sim R (After (NRA E)) (r.A a) (s.A a)
  S : ∀ coll fr, NRC E coll → NRS E fr →
    Sim R (fun x => NRC E x.1 ∧ After (NRS E) x.2) (r.S coll fr) (s.S coll fr)
  P : ∀ fr, NRP E fr → Sim R (After (NRP E)) (r.P fr) (s.P fr)

/-- The values answered by the wildcard manager. -/
def ValuesOK (E : Env W) (path : Prompt) (items : List Item) : Prop := ∃ wc, Named E path wc ∧ Values E wc items

section
variable (hu : ∀ u, E.unknown = some u → RandomFree E u) {rng' : Rng W'}
  {gv' : Str → M W' (List Item)}
  (hgv : ∀ wc w w', R w w' → SameOutcome R (E.getValues wc w) (gv' wc w'))
  {r : Recs W} {s : Recs W'} (hr : SimNR E R r s)

include hgv in
theorem getValues_sim {path : Prompt} {wc : Str} (hn : Named E path wc) :
    Sim R (ValuesOK E path) (E.getValues wc) (gv' wc) :=
  fun w w' hw => ⟨hgv wc w w' hw, fun _ w1 ha => ⟨wc, hn, w, w1, ha⟩⟩

theorem sampleGen_swap (ctx : Ctx) (p : Prompt) :
    sampleGen (swapWorld E rng' gv') ctx p = sampleGen E ctx p := by
  cases p <;> rfl

theorem sampleGens_swap (ctx : Ctx) (l : List Str) :
    sampleGens (swapWorld E rng' gv') ctx l = sampleGens E ctx l := by
  induction l with
  | nil => rfl
  | cons s l ih => simp only [sampleGens, ih, sampleGen_swap]

include hr

theorem next!_NR {g : Gen} (hg : NR E g) : Sim R (fun x => NR E x.2) (r.next! g) (s.next! g) := by
  unfold Recs.next!
  refine (hr.G g hg).bind fun a ha => ?_
  cases a with
  | none => exact .raise _
  | some x => exact .pure ha

theorem rotate_NR {gs : List Gen} (hg : NRL E gs) :
    Sim R (fun x => NRL E x.2) (r.rotate gs) (s.rotate gs) := by
  match hg with
  | .nil => exact .pure .nil
  | .cons h h' =>
    unfold Recs.rotate
    exact (next!_NR hr h).bind fun x hx => (rotate_NR h').bind fun y hy => .pure (.cons hx hy)

include hu

theorem sampleFirst_NR {ctx : Ctx} {p : Prompt} (hctx : COK E ctx) (hp : PromptOK E p) :
    Sim R (Named E p) (r.sampleFirst E ctx p) (s.sampleFirst (swapWorld E rng' gv') ctx p) := by
  have : Sim R (fun _ => True) (r.sampleFirst E ctx p) (s.sampleFirst (swapWorld E rng' gv') ctx p) := by
    unfold Recs.sampleFirst
    rw [sampleGen_swap]
    exact (Sim.lift fun a ha => sampleGen_NR hu hctx hp ha).bind fun g hg =>
      (next!_NR hr hg).bind fun _ _ => .pure trivial
  exact fun w w' hw => ⟨(this w w' hw).1, fun a w1 ha => ⟨_, sampleFirst_good hr.good ha⟩⟩

theorem assign_NR {ctx : Ctx} (hctx : COK E ctx) (name : Str) {value : Cmd} (i o : Bool)
    (hv : RandomFree E value) :
    Sim R (RandomFree E) (r.assign E ctx name value i o)
      (s.assign (swapWorld E rng' gv') ctx name value i o) := by
  unfold Recs.assign
  cases h : (if o = true then none else List.lookup name ctx.vars) with
  | some v =>
    refine .pure ?_
    split at h
    · cases h
    · exact hctx.vars _ (mem_of_lookup h)
  | none =>
    cases i with
    | false => exact .pure hv
    | true =>
      simp only [if_true]
      have key : Sim R (RandomFree E) (do
          let g ← M.lift (mkGen E.unknown ctx value)
          let (v, _) ← r.next! g
          return Cmd.lit v none) (do
          let g ← M.lift (mkGen E.unknown ctx value)
          let (v, _) ← s.next! g
          return Cmd.lit v none) :=
        (Sim.lift fun a ha => mkGen_NR hu hctx hv ha).bind fun g hg =>
          (next!_NR hr hg).bind fun _ _ => .pure (randomFree_lit (by simp))
      cases value <;> first | exact Sim.pure hv | exact key

theorem assigns_NR {ctx : Ctx} (hctx : COK E ctx) {cs : List Cmd} (hcs : ∀ c ∈ cs, RandomFree E c) :
    Sim R (fun x => (∀ c ∈ x.1, RandomFree E c) ∧ ∀ b ∈ x.2, RandomFree E b.2)
      (r.assigns E ctx cs) (s.assigns (swapWorld E rng' gv') ctx cs) := by
  induction cs with
  | nil => exact .pure (by simp)
  | cons c cs ih =>
    have ih := ih fun c h => hcs c (by simp [h])
    have hc := hcs c (by simp)
    cases c <;> simp only [Recs.assigns]
    case assign n v i o =>
      refine (assign_NR hu hr hctx n i o (rf_part hc .assigned)).bind fun a ha => ih.bind fun b hb =>
        .pure ⟨hb.1, ?_⟩
      intro x hx
      rcases List.mem_append.1 hx with hx | hx
      · exact hb.2 x hx
      · simp only [List.mem_singleton] at hx; subst hx; exact ha
    all_goals
      refine ih.bind fun b hb => .pure ⟨?_, hb.2⟩
      intro x hx
      rcases List.mem_cons.1 hx with rfl | hx
      · exact hc
      · exact hb.1 x hx

omit hu in
theorem firstValues_NR {l : List (Cmd × Gen)} (h : ∀ p ∈ l, NR E p.2) :
    Sim R (NRC E) (r.firstValues l) (s.firstValues l) := by
  induction l with
  | nil => exact .pure .nil
  | cons p l ih =>
    obtain ⟨c, g⟩ := p
    unfold Recs.firstValues
    exact (next!_NR hr (h (c, g) (by simp))).bind fun x hx =>
      (ih fun p hp => h p (by simp [hp])).bind fun y hy => .pure (.cons hx hy)

theorem mkColl_NR {ctx : Ctx} (hctx : COK E ctx) {cs : List Cmd} (hcs : ∀ c ∈ cs, RandomFree E c) :
    Sim R (NRC E) (r.mkColl E ctx cs) (s.mkColl (swapWorld E rng' gv') ctx cs) := by
  unfold Recs.mkColl
  refine (Sim.lift fun gs hgs => mkGens_NR hu hctx hcs hgs).bind fun gs hgs => ?_
  refine firstValues_NR hr ?_
  intro p hp
  have hm : p.2 ∈ gs := (List.of_mem_zip hp).2
  clear hp
  have : ∀ {gs}, NRL E gs → ∀ g ∈ gs, NR E g := by
    intro gs h
    induction gs with
    | nil => simp
    | cons g gs ih =>
      cases h with
      | cons h1 h2 =>
        intro x hx
        rcases List.mem_cons.1 hx with rfl | hx
        · exact h1
        · exact ih h2 x hx
  exact this hgs _ hm

omit hu in
theorem getValue_NR (c : Cmd) {coll : Coll} (h : NRC E coll) :
    Sim R (fun x => NRC E x.2) (r.getValue c coll) (s.getValue c coll) := by
  match h with
  | .nil => exact .raise _
  | .cons (c := c') (g := g) (v := v) h1 h2 =>
    unfold Recs.getValue
    by_cases hc : c' = c
    · simp only [hc, if_true]
      refine (hr.G g h1).bind fun x hx => ?_
      cases x with
      | none => exact .pure (.cons .done h2)
      | some x => exact .pure (.cons hx h2)
    · simp only [hc, if_false]
      exact (getValue_NR c h2).bind fun x hx => .pure (.cons h1 hx)

omit hu hr in
theorem mapM_parse_RF {l : List Str} {opts : List (Cmd × Rat)} (hl : ∀ v ∈ l, TextOK E v)
    (h : l.mapM (fun v => (E.parse v).map (fun c => (c, (1 : Rat)))) = .ok opts) :
    ∀ p ∈ opts, RandomFree E p.1 := by
  induction l generalizing opts with
  | nil => simp [List.mapM_nil] at h; cases h; simp
  | cons v l ih =>
    rw [List.mapM_cons] at h
    cases h1 : E.parse v with
    | error e => rw [h1] at h; cases h
    | ok c =>
      rw [h1] at h
      cases h2 : l.mapM (fun v => (E.parse v).map (fun c => (c, (1 : Rat)))) with
      | error e => rw [h2] at h; cases h
      | ok o =>
        rw [h2] at h; cases h
        intro p hp
        rcases List.mem_cons.1 hp with rfl | hp
        · exact hl v (by simp) c h1
        · exact ih (fun v h => hl v (by simp [h])) h2 p hp

omit hu hr in
theorem wild_values_ok {path : Prompt} {m : Option Method} {v : List (Str × Cmd)}
    (hc : RandomFree E (.wild path m v)) {items : List Item} (hi : ValuesOK E path items) :
    ∀ x ∈ iterateWeighted items, TextOK E x := by
  intro x hx c hpc
  obtain ⟨i, hi', rfl⟩ := mem_iterateWeighted hx
  obtain ⟨wc, hn, hwc⟩ := hi
  exact rf_part hc (.value hn hwc hi' hpc)

omit hu hr in
theorem wild_path_ok {path : Prompt} {m : Option Method} {v : List (Str × Cmd)}
    (hc : RandomFree E (.wild path m v)) : PromptOK E path := by
  cases path with
  | inl s => exact fun c h => rf_part hc (.pathText h)
  | inr c => exact rf_part hc .path

omit hu hr in
theorem COK.withVars {ctx : Ctx} (h : COK E ctx) {new : List (Str × Cmd)}
    (hn : ∀ b ∈ new, RandomFree E b.2) : COK E (ctx.withVars new) :=
  ⟨h.method, fun b hb => by
    rcases List.mem_append.1 hb with hb | hb
    · exact hn b hb
    · exact h.vars b hb⟩

include hgv

theorem startG_NR {ctx : Ctx} (hctx : COK E ctx) {c : Cmd} (hc : RandomFree E c) :
    Sim R (NR E) (startG E r ctx c) (startG (swapWorld E rng' gv') s ctx c) := by
  unfold startG
  have hm := hctx.method
  cases c with
  | lit t m => exact .pure .rep
  | seq toks sep m =>
    refine (assigns_NR hu hr hctx fun c h => rf_part hc (.token h)).bind fun a ha => ?_
    obtain ⟨toks', new⟩ := a
    have hctx' := hctx.withVars ha.2
    have key : Sim R (NR E) (do
          let gens ← M.lift (mkGens E.unknown (ctx.withVars new) toks')
          return .seqNF sep gens : M W Gen) (do
          let gens ← M.lift (mkGens E.unknown (ctx.withVars new) toks')
          return .seqNF sep gens) :=
      (Sim.lift fun gs hgs => mkGens_NR hu hctx' ha.1 hgs).bind fun gs hgs =>
        .pure (.seqNF hgs)
    cases h : ctx.method with
    | random => exact absurd h hm
    | cyc => exact key
    | comb =>
      refine (mkColl_NR hu hr hctx' fun c h => ha.1 c (List.mem_of_mem_filter h)).bind fun coll hcoll =>
        .pure (.combSeq hcoll (.start hctx' ?_))
      intro c hc
      simp only [List.cons_append, List.mem_cons, List.mem_append, List.not_mem_nil, or_false] at hc
      rcases hc with rfl | hc | rfl
      · exact randomFree_lit (by simp)
      · exact ha.1 c hc
      · exact randomFree_lit (by simp)
  | variant opts lo hi sep m =>
    have hopts : ∀ p ∈ opts, RandomFree E p.1 := fun p h => rf_part hc (.option h)
    have hb : ∀ (lo hi : Int), ∀ p ∈ boundCombos (opts.map (·.1)) lo hi, ∀ c ∈ p.2, RandomFree E c := by
      intro lo hi p hp c hcp
      simp only [boundCombos, List.mem_flatMap, List.mem_map] at hp
      obtain ⟨b, -, cs, hcs, rfl⟩ := hp
      obtain ⟨q, hq, rfl⟩ := List.mem_map.1 ((mem_getCombos.1 hcs).2.2 c hcp)
      exact hopts q hq
    have hcyc : ∀ l : List (Nat × List Cmd), (∀ p ∈ l, ∀ c ∈ p.2, RandomFree E c) →
        NRAL E (l.map fun p => Arr.start ctx p.2) := by
      intro l hl
      induction l with
      | nil => exact .nil
      | cons a l ih => exact .cons (.start hctx (hl a (by simp))) (ih fun p h => hl p (by simp [h]))
    dsimp only
    split
    · exact .pure .done
    · rename_i path m' v wt
      have hw := hopts _ (List.mem_cons_self ..)
      unfold Recs.wildcardToVariant
      refine Sim.bind (P := RandomFree E) ?_ fun v hv => .pure (.start hctx hv)
      refine (sampleFirst_NR hu hr hctx (wild_path_ok hw)).bind fun wc hwc => ?_
      refine (getValues_sim hgv hwc).bind fun items hitems => ?_
      refine (Sim.lift fun opts ho => mapM_parse_RF (wild_values_ok hw hitems) ho).bind fun opts ho =>
        .pure (randomFree_of (by have := rf_own hw; exact this) ?_)
      intro c' hp
      cases hp with
      | option hp => exact ho _ hp
    · cases h : ctx.method with
      | random => exact absurd h hm
      | cyc => exact .pure (.cycVar (hcyc _ (hb _ _)))
      | comb => exact .pure (.combVar hctx (hb _ _))
    · cases h : ctx.method with
      | random => exact absurd h hm
      | cyc => exact .pure (.cycVar (hcyc _ (hb _ _)))
      | comb => exact .pure (.combVar hctx (hb _ _))
  | wild path m vars =>
    refine (sampleFirst_NR hu hr hctx (wild_path_ok hc)).bind fun wc hwc => ?_
    refine (getValues_sim hgv hwc).bind fun vals hvals => ?_
    have hctx' : COK E (ctx.withVars vars) := hctx.withVars fun b hb => rf_part hc (.param hb)
    by_cases hv : vals.isEmpty = true
    · simp only [hv, if_true]
      unfold Recs.fallback
      refine Sim.bind (P := fun _ => True) ?_ fun v _ => .pure .rep
      cases path with
      | inl t => exact .pure trivial
      | inr c => exact (sampleFirst_NR hu hr hctx' (p := .inr c) (wild_path_ok hc)).weaken fun _ _ => trivial
    · simp only [hv]
      cases h : ctx.method with
      | random => exact absurd h hm
      | comb => exact .pure (.combWild hctx' (wild_values_ok hc hvals) .done)
      | cyc =>
        simp only [Bool.false_eq_true, if_false, sampleGens_swap]
        exact (Sim.lift fun gs hgs => sampleGens_NR hu hctx' (wild_values_ok hc hvals) hgs).bind
          fun gs hgs => .pure (.cycWild hgs)
  | assign => exact .raise _
  | access => exact .raise _
  | wrap wr inn m =>
    cases h : ctx.method with
    | random => exact absurd h hm
    | cyc => exact .raise _
    | comb =>
      simp only [sampleGen_swap]
      exact (Sim.lift fun g hg => sampleGen_NR hu hctx (p := .inr wr) (rf_part hc .wrapper) hg).bind
        fun wg hwg => .pure (.combWrap hctx (rf_part hc .inner) hwg)

theorem stepG_NR {g : Gen} (hg : NR E g) :
    Sim R (After (NR E)) (stepG E r g) (stepG (swapWorld E rng' gv') s g) := by
  cases hg with
  | done => exact .pure trivial
  | start hctx hc =>
    rename_i ctx c
    have key : Sim R (After (NR E)) (do let g ← startG E r ctx c; r.G g)
        (do let g ← startG (swapWorld E rng' gv') s ctx c; s.G g) :=
      (startG_NR hu hgv hr hctx hc).bind fun g hg => hr.G g hg
    cases c with
    | lit t m =>
      simp only [stepG]
      cases h : ctx.method with
      | comb => exact .pure .done
      | random => exact .pure .rep
      | cyc => exact .pure .rep
    | _ => exact key
  | rep => exact .pure .rep
  | seqNF h => exact (rotate_NR hr h).bind fun x hx => .pure (.seqNF hx)
  | cycVar h =>
    cases h with
    | nil => exact .diverge
    | cons h h' =>
      refine (hr.A _ h).bind fun x hx => ?_
      cases x with
      | none => exact .raise _
      | some x => exact .pure (.cycVar (h'.append (.cons hx .nil)))
  | cycWild h =>
    cases h with
    | nil => exact .pure trivial
    | cons h h' => exact (next!_NR hr h).bind fun x hx => .pure (.cycWild (h'.append (.cons hx .nil)))
  | combSeq h1 h2 =>
    refine (hr.S _ _ h1 h2).bind fun x hx => ?_
    obtain ⟨coll, _ | ⟨vs, fr⟩⟩ := x
    · exact .pure trivial
    · exact .pure (.combSeq hx.1 hx.2)
  | combVar hctx hp =>
    rename_i ctx sep seen pend
    cases pend with
    | nil => exact .pure trivial
    | cons p pend =>
      exact hr.G _ (.combVarIn hctx (fun q h => hp q (by simp [h])) (.start hctx (hp p (by simp))))
  | combVarIn hctx hp hfr =>
    rename_i ctx sep seen pend b fr
    refine (hr.P _ hfr).bind fun x hx => ?_
    cases x with
    | none => exact hr.G _ (.combVar hctx hp)
    | some x =>
      dsimp only
      split
      · exact .pure (.combVarIn hctx hp hx)
      · exact hr.G _ (.combVarIn hctx hp hx)
  | combWild hctx hv hcur =>
    rename_i ctx vals cur
    refine (hr.G _ hcur).bind fun x hx => ?_
    cases x with
    | some x => exact .pure (.combWild hctx hv hx)
    | none =>
      cases vals with
      | nil => exact .pure trivial
      | cons v vals =>
        simp only [sampleGen_swap]
        exact (Sim.lift fun g hg => sampleGen_NR hu hctx (p := .inl v) (hv v (by simp)) hg).bind
          fun g hg => hr.G _ (.combWild hctx (fun x h => hv x (by simp [h])) hg)
  | combWrap hctx hi hw =>
    refine (hr.G _ hw).bind fun x hx => ?_
    cases x with
    | none => exact .pure trivial
    | some x =>
      simp only [sampleGen_swap]
      exact (Sim.lift fun g hg => sampleGen_NR hu hctx (p := .inr _) hi hg).bind
        fun g hg => hr.G _ (.combWrapIn hctx hi hx hg)
  | combWrapIn hctx hi hw hig =>
    refine (hr.G _ hig).bind fun x hx => ?_
    cases x with
    | none => exact hr.G _ (.combWrap hctx hi hw)
    | some x => exact .pure (.combWrapIn hctx hi hw hx)
  | squash h =>
    refine (hr.G _ h).bind fun x hx => ?_
    cases x with
    | none => exact .pure trivial
    | some x => exact .pure (.squash hx)

omit hgv in
theorem stepA_NR {a : Arr} (ha : NRA E a) :
    Sim R (After (NRA E)) (stepA E r a) (stepA (swapWorld E rng' gv') s a) := by
  cases ha with
  | done => exact .pure trivial
  | nil => exact .pure .nil
  | start hctx hc =>
    rename_i ctx combo
    cases combo with
    | nil => exact .pure .nil
    | cons c cs =>
      exact (Sim.lift fun g hg => mkGen_NR hu hctx (hc c (by simp)) hg).bind fun g hg =>
        hr.A _ (.node hg (.start hctx fun c h => hc c (by simp [h])))
  | node h1 h2 =>
    refine (hr.A _ h2).bind fun x hx => ?_
    cases x with
    | none => exact .pure trivial
    | some x =>
      refine (hr.G _ h1).bind fun y hy => ?_
      cases y with
      | none => exact .pure .done
      | some y => exact .pure (.node hy hx)

omit hgv in
theorem stepS_NR {coll : Coll} {fr : SFrame} (hcoll : NRC E coll) (hfr : NRS E fr) :
    Sim R (fun x => NRC E x.1 ∧ After (NRS E) x.2) (stepS E r coll fr)
      (stepS (swapWorld E rng' gv') s coll fr) := by
  cases hfr with
  | done => exact .pure ⟨hcoll, trivial⟩
  | start hctx hc =>
    rename_i ctx cs
    cases cs with
    | nil => exact .pure ⟨hcoll, .done⟩
    | cons c cs =>
      have hcs : ∀ c ∈ cs, RandomFree E c := fun c h => hc c (by simp [h])
      simp only [stepS]
      split
      · exact hr.S _ _ hcoll (.nf (.start hctx hcs))
      · exact (Sim.lift fun g hg => mkGen_NR hu hctx (hc c (by simp)) hg).bind fun g hg =>
          hr.S _ _ hcoll (.fin hctx hcs hg)
  | nf h =>
    refine (hr.S _ _ hcoll h).bind fun x hx => ?_
    obtain ⟨coll', _ | ⟨vs, rest'⟩⟩ := x
    · exact .pure ⟨hx.1, trivial⟩
    · refine (getValue_NR hr _ hx.1).bind fun y hy => ?_
      obtain ⟨_ | v, coll''⟩ := y
      · exact .pure ⟨hy, .nf hx.2⟩
      · exact .pure ⟨hy, .nf hx.2⟩
  | fin hctx hc hg =>
    refine (hr.G _ hg).bind fun x hx => ?_
    cases x with
    | none => exact .pure ⟨hcoll, trivial⟩
    | some x => exact hr.S _ _ hcoll (.finIn hctx hc hx (.start hctx hc))
  | finIn hctx hc hg hcur =>
    refine (hr.S _ _ hcoll hcur).bind fun x hx => ?_
    obtain ⟨coll', _ | ⟨vs, cur'⟩⟩ := x
    · exact hr.S _ _ hx.1 (.fin hctx hc hg)
    · exact .pure ⟨hx.1, .finIn hctx hc hg hx.2⟩

omit hgv in
theorem stepP_NR {fr : PFrame} (hfr : NRP E fr) :
    Sim R (After (NRP E)) (stepP E r fr) (stepP (swapWorld E rng' gv') s fr) := by
  cases hfr with
  | done => exact .pure trivial
  | start hctx hc =>
    rename_i ctx cs
    cases cs with
    | nil => exact .pure .done
    | cons c cs =>
      have hcs : ∀ c ∈ cs, RandomFree E c := fun c h => hc c (by simp [h])
      simp only [stepP]
      refine (Sim.lift fun g hg => mkGen_NR hu hctx (hc c (by simp)) hg).bind fun g hg => ?_
      split
      · exact hr.P _ (.nf hg (.start hctx hcs))
      · exact hr.P _ (.fin hctx hcs hg)
  | nf hg h =>
    refine (hr.P _ h).bind fun x hx => ?_
    cases x with
    | none => exact .pure trivial
    | some x => exact (next!_NR hr hg).bind fun y hy => .pure (.nf hy hx)
  | fin hctx hc hg =>
    refine (hr.G _ hg).bind fun x hx => ?_
    cases x with
    | none => exact .pure trivial
    | some x => exact hr.P _ (.finIn hctx hc hx (.start hctx hc))
  | finIn hctx hc hg hcur =>
    refine (hr.P _ hcur).bind fun x hx => ?_
    cases x with
    | none => exact hr.P _ (.fin hctx hc hg)
    | some x => exact .pure (.finIn hctx hc hg hx)

end

theorem recs_NR (hu : ∀ u, E.unknown = some u → RandomFree E u) {rng' : Rng W'}
    {gv' : Str → M W' (List Item)}
    (hgv : ∀ wc w w', R w w' → SameOutcome R (E.getValues wc w) (gv' wc w')) (n : Nat) :
    SimNR E R (recs E n) (recs (swapWorld E rng' gv') n) := by
  induction n with
  | zero => exact ⟨recs_good E 0, fun _ _ => .diverge, fun _ _ => .diverge, fun _ _ _ _ => .diverge, fun _ _ => .diverge⟩
  | succ n ih =>
    exact ⟨recs_good E (n + 1), fun g hg => stepG_NR hu hgv ih hg, fun a ha => stepA_NR hu ih ha,
      fun coll fr h1 h2 => stepS_NR hu ih h1 h2, fun fr h => stepP_NR hu ih h⟩

theorem collect_NR (hu : ∀ u, E.unknown = some u → RandomFree E u) {rng' : Rng W'}
    {gv' : Str → M W' (List Item)}
    (hgv : ∀ wc w w', R w w' → SameOutcome R (E.getValues wc w) (gv' wc w')) (n k : Nat) {g : Gen}
    (hg : NR E g) (w : W) (w' : W') (hw : R w w') :
    (collect E n k g w).1 = (collect (swapWorld E rng' gv') n k g w').1 ∧
      SameStop R (collect E n k g w).2 (collect (swapWorld E rng' gv') n k g w').2 := by
  induction k generalizing g w w' with
  | zero => exact ⟨rfl, rfl, hw⟩
  | succ k ih =>
    obtain ⟨h1, h2⟩ := (recs_NR hu hgv (rng' := rng') n).G g hg w w' hw
    simp only [collect, nextG]
    cases hx : (recs E n).G g w with
    | ok a w1 =>
      cases hy : (recs (swapWorld E rng' gv') n).G g w' with
      | ok b w2 =>
        rw [hx, hy] at h1
        obtain ⟨rfl, h3⟩ := h1
        cases a with
        | none => exact ⟨rfl, h3⟩
        | some x =>
          have := ih (h2 _ _ hx) w1 w2 h3
          exact ⟨by dsimp only; rw [this.1], this.2⟩
      | err e w2 => rw [hx, hy] at h1; exact h1.elim
      | fuel => rw [hx, hy] at h1; exact h1.elim
    | err e w1 =>
      cases hy : (recs (swapWorld E rng' gv') n).G g w' with
      | ok b w2 => rw [hx, hy] at h1; exact h1.elim
      | err e w2 => rw [hx, hy] at h1; exact ⟨rfl, h1⟩
      | fuel => rw [hx, hy] at h1; exact h1.elim
    | fuel =>
      cases hy : (recs (swapWorld E rng' gv') n).G g w' with
      | ok b w2 => rw [hx, hy] at h1; exact h1.elim
      | err e w2 => rw [hx, hy] at h1; exact h1.elim
      | fuel => exact ⟨rfl, trivial⟩

end Verif
