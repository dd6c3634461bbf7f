import Verif.Proofs.Live
import Verif.Proofs.RandomFree
import Verif.Spec.Causes
/-! Where exceptions come from: an invariant of generators relative to closed sets of commands, bindings, sampling
methods and exceptions. -/

namespace Verif
open Spec
variable {W : Type} {E : Env W}

/-- Every exception `x` raises is in `S`, every result satisfies `P`. -/
def Errs {α : Type} (S : Err → Prop) (P : α → Prop) (x : M W α) : Prop :=
  ∀ w, (∀ a w', x w = .ok a w' → P a) ∧ ∀ e w', x w = .err e w' → S e

section errs
variable {α β : Type} {S : Err → Prop}

theorem Errs.pure {P : α → Prop} {a : α} (h : P a) : Errs S P (Pure.pure a : M W α) := by
  intro w
  refine ⟨fun b w1 hb => ?_, fun e w1 hb => by cases hb⟩
  simp only [M.pure_eq, Res.ok.injEq] at hb
  exact hb.1 ▸ h

theorem Errs.raise {P : α → Prop} {e : Err} (h : S e) : Errs S P (M.raise e : M W α) :=
  fun _ => ⟨fun _ _ h => (by cases h), fun _ _ h' => by cases h'; exact h⟩

theorem Errs.diverge {P : α → Prop} : Errs S P (M.diverge : M W α) :=
  fun _ => ⟨fun _ _ h => (by cases h), fun _ _ h => by cases h⟩

theorem Errs.lift {P : α → Prop} {x : Except Err α} (h : ∀ a, x = .ok a → P a)
    (he : ∀ e, x = .error e → S e) : Errs S P (M.lift x : M W α) := by
  cases x with
  | ok a => exact .pure (h a rfl)
  | error e => exact .raise (he e rfl)

theorem Errs.bind {P : α → Prop} {Q : β → Prop} {x : M W α} {f : α → M W β} (hx : Errs S P x)
    (hf : ∀ a, P a → Errs S Q (f a)) : Errs S Q (x >>= f) := by
  intro w
  rw [M.bind_eq]
  cases hxw : x w with
  | ok a w1 => exact hf a ((hx w).1 a w1 hxw) w1
  | err e w1 => exact ⟨fun _ _ h => (by cases h), fun _ _ h => by cases h; exact (hx w).2 e w1 hxw⟩
  | fuel => exact ⟨fun _ _ h => (by cases h), fun _ _ h => by cases h⟩

theorem Errs.weaken {P Q : α → Prop} {x : M W α} (h : Errs S P x) (hq : ∀ a, P a → Q a) : Errs S Q x :=
  fun w => ⟨fun a w1 ha => hq a ((h w).1 a w1 ha), (h w).2⟩

end errs

/-- Closed sets: `Q b c`, command `c` may be sampled while the variables `b` are being resolved; `B n c`, variable `n`
may be bound to `c`; `MM m`, method `m` may be used; `V`, the bindings always present; `S e`, exception `e` may be
raised. -/
structure Inv (E : Env W) where
  Q : List Str → Cmd → Prop
  B : Str → Cmd → Prop
  MM : Method → Prop
  V : List (Str × Cmd)
  S : Err → Prop
  method : ∀ {b c m}, Q b c → c.method = some m → MM m
  token : ∀ {b toks sep m c}, Q b (.seq toks sep m) → c ∈ toks → (∀ n v i o, c ≠ .assign n v i o) → Q b c
  assigned : ∀ {b toks sep m n v i o}, Q b (.seq toks sep m) → .assign n v i o ∈ toks → B n v ∧ Q b v
  option : ∀ {b opts lo hi sep m p}, Q b (.variant opts lo hi sep m) → p ∈ opts → Q b p.1
  path : ∀ {b c m v}, Q b (.wild (.inr c) m v) → Q b c
  pathText : ∀ {b s c m v}, Q b (.wild (.inl s) m v) → E.parse s = .ok c → Q b c
  param : ∀ {b path m v p}, Q b (.wild path m v) → p ∈ v → B p.1 p.2
  value : ∀ {b path m v wc items i c}, Q b (.wild path m v) → Named E path wc → Values E wc items → i ∈ items →
    E.parse i.content = .ok c → Q b c
  wrapper : ∀ {b w i m}, Q b (.wrap w i m) → Q b w
  inner : ∀ {b w i m}, Q b (.wrap w i m) → Q b i
  sentinel : ∀ {b}, MM .comb → Q b sentinel
  bindLit : ∀ {n s}, B n (.lit s none)
  var : ∀ {b n d c}, Q b (.access n d) → n ∉ b → B n c → Q (n :: b) c
  default : ∀ {b n c}, Q b (.access n (some c)) → n ∉ b → Q (n :: b) c
  unknown : ∀ {b n d u}, Q b (.access n d) → n ∉ b → E.unknown = some u → Q (n :: b) u
  expand : ∀ {b path m v wt lo hi sep m' wc items opts}, Q b (.variant [(.wild path m v, wt)] lo hi sep m') →
    Named E path wc → Values E wc items → (∀ o ∈ opts, o.2 = 1 ∧ ∃ i ∈ items, E.parse i.content = .ok o.1) →
    (opts = [] → iterateWeighted items = []) →
    Q b (Cmd.mkVariant opts (min lo items.length) (min hi items.length) sep m)
  undefinedErr : ∀ {b n d vars}, Q b (.access n d) → (∀ x ∈ vars, B x.1 x.2) → (∀ x ∈ V, x ∈ vars) →
    Undefined E.unknown vars n d → S (.key n)
  loopErr : ∀ {b n d}, Q b (.access n d) → n ∈ b → S (.recursion n)
  assignErr : ∀ {b n v i o}, Q b (.assign n v i o) → S .notImplemented
  wrapErr : ∀ {b w i m}, Q b (.wrap w i m) → MM .cyc → S .notImplemented
  nameErr : ∀ {b s m v e}, Q b (.wild (.inl s) m v) → E.parse s = .error e → S e
  valueErr : ∀ {b path m v wc items i e}, Q b (.wild path m v) → Named E path wc → Values E wc items → i ∈ items →
    E.parse i.content = .error e → S e
  managerErr : ∀ {b path m v wc w w' e}, Q b (.wild path m v) → Named E path wc → E.getValues wc w = .err e w' → S e
  weightsErr : ∀ {b opts lo hi sep m}, Q b (.variant opts lo hi sep m) → MM .random → 2 ≤ opts.length →
    ¬ (0 ≤ max lo hi ∧ DrawableWeights (opts.map (·.2)) (max 0 (min (max lo hi) opts.length))) → S .value
  itemsErr : ∀ {b path m v wc items}, Q b (.wild path m v) → MM .random → Named E path wc → Values E wc items →
    VariedWeights items → ¬ DrawableItems items → S .value
  optionsErr : ∀ {b lo hi sep m}, Q b (.variant [] lo hi sep m) → S .runtime
  listedErr : ∀ {b path m v wc items}, Q b (.wild path m v) → MM .cyc ∨ MM .comb → Named E path wc → Values E wc items → items ≠ [] →
    iterateWeighted items = [] → S .runtime
  contentErr : ∀ {b path m v wc items i}, Q b (.wild path m v) → MM .cyc ∨ MM .comb → Named E path wc → Values E wc items → i ∈ items →
    i.content = [] → S .runtime
  emptyTextErr : ∀ {b m v}, Q b (.wild (.inl []) m v) → S .runtime
  emptyPathErr : ∀ {b c m v}, Q b (.wild (.inr c) m v) → c.truthy = false → S .runtime
  selectErr : ∀ {b opts lo hi sep m}, Q b (.variant opts lo hi sep m) → MM .comb → ¬ SingleWild opts →
    ¬ (0 ≤ max lo hi ∧ (opts.length ≤ 1 ∨ min lo hi ≤ 1)) → S .runtime
  emptyWrapErr : ∀ {b w i m}, Q b (.wrap w i m) → MM .comb → w.truthy = false ∨ i.truthy = false → S .runtime

namespace Inv
variable (I : Inv E)

/-- Context with permitted method and bindings. -/
structure COK (ctx : Ctx) : Prop where
  method : I.MM ctx.method
  vars : ∀ x ∈ ctx.vars, I.B x.1 x.2
  base : ∀ x ∈ I.V, x ∈ ctx.vars

def TextOK (b : List Str) (s : Str) : Prop :=
  (∀ c, E.parse s = .ok c → I.Q b c) ∧ ∀ e, E.parse s = .error e → I.S e

def PromptOK (b : List Str) : Prompt → Prop
  | .inl s => I.TextOK b s
  | .inr c => I.Q b c

mutual
inductive FG : Gen → Prop
  | done : FG .done
  | start {ctx c} : I.COK ctx → I.Q ctx.being c → (∀ n d, c ≠ .access n d) → FG (.start ctx c)
  | rep {s} : FG (.rep s)
  | seqNF {sep gens} : FL gens → FG (.seqNF sep gens)
  | randVar {ctx opts lo hi sep} : I.COK ctx → (∀ p ∈ opts, I.Q ctx.being p.1) → 2 ≤ opts.length →
      (0 ≤ max lo hi ∧ DrawableWeights (opts.map (·.2)) (max 0 (min (max lo hi) opts.length))) ∨ I.S .value →
      FG (.randVar ctx opts lo hi sep)
  | randWild {ctx items buf} : I.COK ctx → items ≠ [] → (∀ i ∈ items, I.TextOK ctx.being i.content) →
      (∀ x ∈ buf, x ∈ items.map Item.content) → (¬ VariedWeights items ∨ DrawableItems items) ∨ I.S .value →
      FG (.randWild ctx items buf)
  | zipWrap {wg ig} : FG wg → FG ig → FG (.zipWrap wg ig)
  | cycVar {sep q} : FAL q → FG (.cycVar sep q)
  | cycWild {q} : FL q → FG (.cycWild q)
  | combSeq {sep coll fr} : FC coll → FS (coll.map (·.1)) fr → FG (.combSeq sep coll fr)
  | combVar {ctx sep seen pend} : I.COK ctx → (∀ p ∈ pend, ∀ c ∈ p.2, I.Q ctx.being c) →
      FG (.combVar ctx sep seen pend)
  | combVarIn {ctx sep seen pend b fr} : I.COK ctx → (∀ p ∈ pend, ∀ c ∈ p.2, I.Q ctx.being c) →
      FP fr → FG (.combVarIn ctx sep seen pend b fr)
  | combWild {ctx vals cur} : I.COK ctx → (∀ v ∈ vals, I.TextOK ctx.being v) → FG cur → FG (.combWild ctx vals cur)
  | combWrap {ctx inner wg} : I.COK ctx → I.Q ctx.being inner → FG wg → FG (.combWrap ctx inner wg)
  | combWrapIn {ctx inner wg w ig} : I.COK ctx → I.Q ctx.being inner → FG wg → FG ig →
      FG (.combWrapIn ctx inner wg w ig)
  | squash {g} : FG g → FG (.squash g)
inductive FL : List Gen → Prop
  | nil : FL []
  | cons {g gs} : FG g → FL gs → FL (g :: gs)
inductive FC : Coll → Prop
  | nil : FC []
  | cons {c g v cs} : FG g → FC cs → FC ((c, g, v) :: cs)
inductive FA : Arr → Prop
  | done : FA .done
  | start {ctx combo} : I.COK ctx → (∀ c ∈ combo, I.Q ctx.being c) → FA (.start ctx combo)
  | nil : FA .nil
  | node {g rest} : FG g → FA rest → FA (.node g rest)
inductive FAL : List Arr → Prop
  | nil : FAL []
  | cons {g gs} : FA g → FAL gs → FAL (g :: gs)
inductive FS : List Cmd → SFrame → Prop
  | done {K} : FS K .done
  | start {K ctx cs} : I.COK ctx → (∀ c ∈ cs, I.Q ctx.being c) →
      (∀ c ∈ cs, (ctx.effective c).nonfinite = true → c ∈ K) → FS K (.start ctx cs)
  | nf {K c rest} : c ∈ K → FS K rest → FS K (.nf c rest)
  | fin {K ctx rest g} : I.COK ctx → (∀ c ∈ rest, I.Q ctx.being c) →
      (∀ c ∈ rest, (ctx.effective c).nonfinite = true → c ∈ K) → FG g → FS K (.fin ctx rest g)
  | finIn {K ctx rest g v cur} : I.COK ctx → (∀ c ∈ rest, I.Q ctx.being c) →
      (∀ c ∈ rest, (ctx.effective c).nonfinite = true → c ∈ K) → FG g → FS K cur →
      FS K (.finIn ctx rest g v cur)
inductive FP : PFrame → Prop
  | done : FP .done
  | start {ctx cs} : I.COK ctx → (∀ c ∈ cs, I.Q ctx.being c) → FP (.start ctx cs)
  | nf {g rest} : FG g → FP rest → FP (.nf g rest)
  | fin {ctx rest g} : I.COK ctx → (∀ c ∈ rest, I.Q ctx.being c) → FG g → FP (.fin ctx rest g)
  | finIn {ctx rest g v cur} : I.COK ctx → (∀ c ∈ rest, I.Q ctx.being c) → FG g → FP cur →
      FP (.finIn ctx rest g v cur)
end


variable {I : Inv E}

theorem FL.append {xs ys : List Gen} (hx : I.FL xs) (hy : I.FL ys) : I.FL (xs ++ ys) := by
  match hx with
  | .nil => exact hy
  | .cons h h' => exact .cons h (FL.append h' hy)

theorem FAL.append {xs ys : List Arr} (hx : I.FAL xs) (hy : I.FAL ys) : I.FAL (xs ++ ys) := by
  match hx with
  | .nil => exact hy
  | .cons h h' => exact .cons h (FAL.append h' hy)

theorem FL.mem {gs : List Gen} (h : I.FL gs) : ∀ g ∈ gs, I.FG g := by
  induction gs with
  | nil => simp
  | cons g gs ih =>
    cases h with
    | cons h1 h2 =>
      intro x hx
      rcases List.mem_cons.1 hx with rfl | hx
      · exact h1
      · exact ih h2 x hx

theorem effMethod_MM {ctx : Ctx} (hctx : I.COK ctx) {b : List Str} {c : Cmd} (hc : I.Q b c) :
    I.MM (effMethod ctx.method c.method) := by
  rw [effMethod_eq_nest]
  cases h : c.method with
  | none => exact hctx.method
  | some m =>
    simp only [nest]
    split
    · exact hctx.method
    · exact I.method hc h

theorem resolves_Q {ctx : Ctx} (hctx : I.COK ctx) {b : List Str} {n : Str} {d : Option Cmd} {c : Cmd}
    (hq : I.Q b (.access n d)) (hn : n ∉ b) (h : Resolves E.unknown ctx.vars n d c) : I.Q (n :: b) c := by
  cases h with
  | var h _ => exact I.var hq hn (hctx.vars _ (mem_of_lookup h))
  | default _ _ => exact I.default hq hn
  | unknownEmpty _ _ h => exact I.unknown hq hn h
  | unknownEmptyDefault _ _ h => exact I.unknown hq hn h
  | unknown _ h => exact I.unknown hq hn h

/-- What holds of the outcome of following a chain of definitions. -/
def OutcomeOK (I : Inv E) : Outcome → Prop
  | .target b c => I.Q b c ∧ ∀ n d, c ≠ .access n d
  | .recursion n => I.S (.recursion n)
  | .undefined n => I.S (.key n)

theorem chain_Q {ctx : Ctx} (hctx : I.COK ctx) {b : List Str} {c : Cmd} {o : Outcome} (hc : I.Q b c)
    (h : Chain E.unknown ctx.vars b c o) : I.OutcomeOK o := by
  generalize hv : ctx.vars = vars at h
  induction h with
  | target hn => exact ⟨hc, hn⟩
  | undefined h => subst hv; exact I.undefinedErr hc hctx.vars hctx.base h
  | loop _ h => exact I.loopErr hc h
  | step hr hn _ ih => subst hv; exact ih (resolves_Q hctx hc hn hr)

theorem mkGen_F {ctx : Ctx} {c : Cmd} (hctx : I.COK ctx) (hc : I.Q ctx.being c) :
    (∀ g, mkGen E.unknown ctx c = .ok g → I.FG g) ∧ ∀ e, mkGen E.unknown ctx c = .error e → I.S e := by
  obtain ⟨o, ho⟩ := chain_total E.unknown ctx.vars ctx.being c
  have hok := chain_Q hctx hc ho
  rw [mkGen_outcome ho]
  constructor
  · intro g h
    obtain ⟨b, c', rfl, rfl⟩ := outcomeGen_ok h
    exact .start ⟨effMethod_MM hctx hok.1, hctx.vars, hctx.base⟩ hok.1 hok.2
  · intro e h
    cases o with
    | recursion n => cases h; exact hok
    | undefined n => cases h; exact hok
    | target b c' =>
      cases c' with
      | assign => cases h; exact I.assignErr hok.1
      | wrap wr i m =>
        simp only [outcomeGen] at h
        split at h
        · rename_i hm
          cases h
          exact I.wrapErr hok.1 (hm ▸ effMethod_MM hctx hok.1)
        · cases h
      | _ => cases h

theorem mkGens_F {ctx : Ctx} {cs : List Cmd} (hctx : I.COK ctx) (hc : ∀ c ∈ cs, I.Q ctx.being c) :
    (∀ gs, mkGens E.unknown ctx cs = .ok gs → I.FL gs ∧ gs.length = cs.length) ∧
      ∀ e, mkGens E.unknown ctx cs = .error e → I.S e := by
  induction cs with
  | nil => exact ⟨fun gs h => by cases h; exact ⟨.nil, rfl⟩, fun e h => by cases h⟩
  | cons c cs ih =>
    have h1 := mkGen_F hctx (hc c (by simp))
    have h2 := ih fun c h => hc c (by simp [h])
    unfold mkGens
    cases e1 : mkGen E.unknown ctx c with
    | error e => exact ⟨fun _ h => (by cases h), fun _ h => by cases h; exact h1.2 _ e1⟩
    | ok g =>
      cases e2 : mkGens E.unknown ctx cs with
      | error e => exact ⟨fun _ h => (by cases h), fun _ h => by cases h; exact h2.2 _ e2⟩
      | ok gs =>
        exact ⟨fun _ h => by cases h; exact ⟨.cons (h1.1 _ e1) (h2.1 _ e2).1, by simp [(h2.1 _ e2).2]⟩,
          fun _ h => by cases h⟩

theorem sampleGen_F {ctx : Ctx} {p : Prompt} (hctx : I.COK ctx) (hp : I.PromptOK ctx.being p) :
    (∀ g, sampleGen E ctx p = .ok g → I.FG g) ∧ ∀ e, sampleGen E ctx p = .error e → I.S e := by
  have key : ∀ c, I.Q ctx.being c → ∀ x : Except Err Gen, (match mkGen E.unknown ctx c with
        | .error e => .error e
        | .ok g => .ok (if E.ignoreWs then .squash g else g) : Except Err Gen) = x →
      (∀ g, x = .ok g → I.FG g) ∧ ∀ e, x = .error e → I.S e := by
    intro c hc x hx
    have h := mkGen_F hctx hc
    cases h1 : mkGen E.unknown ctx c with
    | error e => rw [h1] at hx; subst hx; exact ⟨fun _ h => (by cases h), fun _ h' => by cases h'; exact h.2 _ h1⟩
    | ok g' =>
      rw [h1] at hx; subst hx
      refine ⟨fun g hg => ?_, fun _ h => by cases h⟩
      cases hg
      have := h.1 _ h1
      split
      · exact .squash this
      · exact this
  cases p with
  | inl s =>
    simp only [sampleGen]
    split
    · exact ⟨fun g h => by cases h; exact .done, fun e h => by cases h⟩
    · cases h1 : E.parse s with
      | error e => exact ⟨fun g h => by (cases h), fun e h => by cases h; exact hp.2 _ h1⟩
      | ok c => exact key c (hp.1 c h1) _ rfl
  | inr c =>
    simp only [sampleGen]
    split
    · exact ⟨fun g h => by cases h; exact .done, fun e h => by cases h⟩
    · exact key c hp _ rfl

theorem sampleGens_F {ctx : Ctx} {ps : List Str} (hctx : I.COK ctx) (hp : ∀ p ∈ ps, I.TextOK ctx.being p) :
    (∀ gs, sampleGens E ctx ps = .ok gs → I.FL gs) ∧ ∀ e, sampleGens E ctx ps = .error e → I.S e := by
  induction ps with
  | nil => exact ⟨fun gs h => by cases h; exact .nil, fun e h => by cases h⟩
  | cons p ps ih =>
    have h1 := sampleGen_F (p := .inl p) hctx (hp p (by simp))
    have h2 := ih fun c h => hp c (by simp [h])
    unfold sampleGens
    cases e1 : sampleGen E ctx (.inl p) with
    | error e => exact ⟨fun _ h => (by cases h), fun _ h => by cases h; exact h1.2 _ e1⟩
    | ok g =>
      cases e2 : sampleGens E ctx ps with
      | error e => exact ⟨fun _ h => (by cases h), fun _ h => by cases h; exact h2.2 _ e2⟩
      | ok gs => exact ⟨fun _ h => by cases h; exact .cons (h1.1 _ e1) (h2.1 _ e2), fun _ h => by cases h⟩

/-- Where RuntimeError is permitted anyway. -/
structure RecsOK (I : Inv E) (r : Recs W) : Prop where
  good : Good E r
  rt : I.S .runtime
  G : ∀ g, I.FG g → Errs I.S (After I.FG) (r.G g)
  A : ∀ a, I.FA a → Errs I.S (After I.FA) (r.A a)
  S : ∀ coll fr, I.FC coll → I.FS (coll.map (·.1)) fr →
    Errs I.S (fun x => I.FC x.1 ∧ x.1.map (·.1) = coll.map (·.1) ∧ After (I.FS (coll.map (·.1))) x.2) (r.S coll fr)
  P : ∀ fr, I.FP fr → Errs I.S (After I.FP) (r.P fr)

theorem getValues_F {b : List Str} {path : Prompt} {m : Option Method} {v : List (Str × Cmd)}
    (h : I.Q b (.wild path m v)) {wc : Str} (hn : Named E path wc) :
    Errs I.S (fun items => Values E wc items) (E.getValues wc) :=
  fun w => ⟨fun _ w' h => ⟨w, w', h⟩, fun _ _ he => I.managerErr h hn he⟩

section
variable {r : Recs W} (hr : I.RecsOK r)
include hr

theorem next!_F {g : Gen} (hg : I.FG g) : Errs I.S (fun x => I.FG x.2) (r.next! g) := by
  unfold Recs.next!
  refine (hr.G g hg).bind fun a ha => ?_
  cases a with
  | none => exact .raise hr.rt
  | some x => exact .pure ha

theorem rotate_F {gs : List Gen} (hg : I.FL gs) : Errs I.S (fun x => I.FL x.2) (r.rotate gs) := by
  match hg with
  | .nil => exact .pure .nil
  | .cons h h' =>
    unfold Recs.rotate
    exact (next!_F hr h).bind fun x hx => (rotate_F h').bind fun y hy => .pure (.cons hx hy)

theorem sampleFirst_F {ctx : Ctx} {p : Prompt} (hctx : I.COK ctx) (hp : I.PromptOK ctx.being p) :
    Errs I.S (Named E p) (r.sampleFirst E ctx p) := by
  have : Errs I.S (fun _ => True) (r.sampleFirst E ctx p) := by
    unfold Recs.sampleFirst
    have h := sampleGen_F hctx hp
    exact (Errs.lift h.1 h.2).bind fun g hg => (next!_F hr hg).bind fun _ _ => .pure trivial
  exact fun w => ⟨fun a w1 ha => ⟨_, sampleFirst_good hr.good ha⟩, (this w).2⟩

theorem assign_F {ctx : Ctx} (hctx : I.COK ctx) {name : Str} {value : Cmd} (i o : Bool)
    (hv : I.Q ctx.being value) (hb : I.B name value) :
    Errs I.S (fun c => I.B name c) (r.assign E ctx name value i o) := by
  unfold Recs.assign
  cases h : (if o = true then none else List.lookup name ctx.vars) with
  | some v =>
    refine .pure ?_
    split at h
    · cases h
    · exact hctx.vars _ (mem_of_lookup h)
  | none =>
    cases i with
    | false => exact .pure hb
    | true =>
      simp only [if_true]
      have h' := mkGen_F hctx hv
      have key : Errs I.S (fun c => I.B name c) (do
          let g ← M.lift (mkGen E.unknown ctx value)
          let (v, _) ← r.next! g
          return Cmd.lit v none) :=
        (Errs.lift h'.1 h'.2).bind fun g hg => (next!_F hr hg).bind fun _ _ => .pure I.bindLit
      cases value <;> first | exact Errs.pure hb | exact key

theorem assigns_F {ctx : Ctx} (hctx : I.COK ctx) {cs : List Cmd}
    (ht : ∀ c ∈ cs, (∀ n v i o, c ≠ .assign n v i o) → I.Q ctx.being c)
    (ha : ∀ n v i o, .assign n v i o ∈ cs → I.B n v ∧ I.Q ctx.being v) :
    Errs I.S (fun x => (∀ c ∈ x.1, I.Q ctx.being c) ∧ ∀ b ∈ x.2, I.B b.1 b.2) (r.assigns E ctx cs) := by
  induction cs with
  | nil => exact .pure (by simp)
  | cons c cs ih =>
    have ih := ih (fun c h => ht c (by simp [h])) (fun n v i o h => ha n v i o (by simp [h]))
    have hc := ht c (by simp)
    cases c <;> simp only [Recs.assigns]
    case assign n v i o =>
      have hav := ha n v i o (by simp)
      refine (assign_F hr hctx i o hav.2 hav.1).bind fun a ha => ih.bind fun b hb => .pure ⟨hb.1, ?_⟩
      intro x hx
      rcases List.mem_append.1 hx with hx | hx
      · exact hb.2 x hx
      · simp only [List.mem_singleton] at hx; subst hx; exact ha
    all_goals
      refine ih.bind fun b hb => .pure ⟨?_, hb.2⟩
      intro x hx
      rcases List.mem_cons.1 hx with rfl | hx
      · exact hc (by simp)
      · exact hb.1 x hx

theorem firstValues_F {l : List (Cmd × Gen)} (h : ∀ p ∈ l, I.FG p.2) :
    Errs I.S (fun x => I.FC x ∧ x.map (·.1) = l.map (·.1)) (r.firstValues l) := by
  induction l with
  | nil => exact .pure ⟨.nil, rfl⟩
  | cons p l ih =>
    obtain ⟨c, g⟩ := p
    unfold Recs.firstValues
    exact (next!_F hr (h (c, g) (by simp))).bind fun x hx =>
      (ih fun p hp => h p (by simp [hp])).bind fun y hy => .pure ⟨.cons hx hy.1, by simp [hy.2]⟩

theorem mkColl_F {ctx : Ctx} (hctx : I.COK ctx) {cs : List Cmd} (hcs : ∀ c ∈ cs, I.Q ctx.being c) :
    Errs I.S (fun x => I.FC x ∧ x.map (·.1) = cs) (r.mkColl E ctx cs) := by
  unfold Recs.mkColl
  have h := mkGens_F hctx hcs
  refine (Errs.lift h.1 h.2).bind fun gs hgs => ?_
  have e : (cs.zip gs).map (·.1) = cs := List.map_fst_zip (by omega)
  have := firstValues_F hr (l := cs.zip gs) (fun p hp => hgs.1.mem _ (List.of_mem_zip hp).2)
  rw [e] at this
  exact this

theorem getValue_F {c : Cmd} {coll : Coll} (h : I.FC coll) (hc : c ∈ coll.map (·.1)) :
    Errs I.S (fun x => I.FC x.2 ∧ x.2.map (·.1) = coll.map (·.1)) (r.getValue c coll) := by
  match h with
  | .nil => simp at hc
  | .cons (c := c') (g := g) (v := v) (cs := cs) h1 h2 =>
    unfold Recs.getValue
    by_cases hcc : c' = c
    · simp only [hcc, if_true]
      refine (hr.G g h1).bind fun x hx => ?_
      cases x with
      | none => exact .pure ⟨.cons .done h2, by simp⟩
      | some x => exact .pure ⟨.cons hx h2, by simp⟩
    · simp only [hcc, if_false]
      have hc' : c ∈ cs.map (·.1) := by
        simp only [List.map_cons, List.mem_cons] at hc
        rcases hc with hc | hc
        · exact absurd hc.symm hcc
        · exact hc
      exact (getValue_F h2 hc').bind fun x hx => .pure ⟨.cons h1 hx.1, by simp [hx.2]⟩

end

theorem mapM_parse_F {b : List Str} {l : List Str} (hl : ∀ v ∈ l, I.TextOK b v) :
    (∀ opts, l.mapM (fun v => (E.parse v).map (fun c => (c, (1 : Rat)))) = .ok opts →
      (∀ o ∈ opts, o.2 = 1 ∧ ∃ v ∈ l, E.parse v = .ok o.1) ∧ (opts = [] → l = [])) ∧
    ∀ e, l.mapM (fun v => (E.parse v).map (fun c => (c, (1 : Rat)))) = .error e → I.S e := by
  induction l with
  | nil =>
    simp only [List.mapM_nil]
    exact ⟨fun opts h => by cases h; simp, fun e h => by cases h⟩
  | cons v l ih =>
    have ih := ih fun v h => hl v (by simp [h])
    rw [List.mapM_cons]
    cases h1 : E.parse v with
    | error e => exact ⟨fun _ h => (by cases h), fun _ h => by cases h; exact (hl v (by simp)).2 _ h1⟩
    | ok c =>
      cases h2 : l.mapM (fun v => (E.parse v).map (fun c => (c, (1 : Rat)))) with
      | error e => exact ⟨fun _ h => (by cases h), fun _ h => by cases h; exact ih.2 _ h2⟩
      | ok o =>
        refine ⟨fun opts h => ?_, fun _ h => by cases h⟩
        cases h
        refine ⟨?_, by simp⟩
        intro p hp
        rcases List.mem_cons.1 hp with rfl | hp
        · exact ⟨rfl, v, by simp, h1⟩
        · obtain ⟨h3, v', hv', h4⟩ := (ih.1 _ h2).1 p hp
          exact ⟨h3, v', by simp [hv'], h4⟩

theorem wild_values_F {b : List Str} {path : Prompt} {m : Option Method} {v : List (Str × Cmd)}
    (hc : I.Q b (.wild path m v)) {wc : Str} {items : List Item} (hn : Named E path wc)
    (hi : Values E wc items) : ∀ i ∈ items, I.TextOK b i.content :=
  fun _ hx => ⟨fun _ h => I.value hc hn hi hx h, fun _ h => I.valueErr hc hn hi hx h⟩

theorem wild_path_F {b : List Str} {path : Prompt} {m : Option Method} {v : List (Str × Cmd)}
    (hc : I.Q b (.wild path m v)) : I.PromptOK b path := by
  cases path with
  | inl s => exact ⟨fun _ h => I.pathText hc h, fun _ h => I.nameErr hc h⟩
  | inr c => exact I.path hc

theorem COK.withVars {ctx : Ctx} (h : I.COK ctx) {new : List (Str × Cmd)} (hn : ∀ b ∈ new, I.B b.1 b.2) :
    I.COK (ctx.withVars new) :=
  ⟨h.method, fun b hb => by
    rcases List.mem_append.1 hb with hb | hb
    · exact hn b hb
    · exact h.vars b hb, fun x hx => List.mem_append_right _ (h.base x hx)⟩

end Inv

/-! ### Exceptions of random draws -/

theorem bisectGo_le (a : List Rat) (x : Rat) (n lo hi : Nat) (h : lo ≤ hi) : bisectGo a x n lo hi ≤ hi := by
  induction n generalizing lo hi with
  | zero => exact h
  | succ n ih =>
    simp only [bisectGo]
    split
    · split
      · exact (ih _ _ (by omega)).trans (by omega)
      · exact ih _ _ (by omega)
    · exact h

theorem weightedIndex_lt {A : Arith} {cum : List Rat} {q : Rat} (h : cum ≠ []) :
    weightedIndex A cum q < cum.length := by
  have := bisectGo_le cum (A.times q (cum.getLastD 0)) (cum.length - 1 - 0) 0 (cum.length - 1) (by omega)
  have hl := List.length_pos_of_ne_nil h
  unfold weightedIndex bisectRight
  omega

/-- Drawing from something raises at most ValueError. -/
theorem choicesCum_err {α : Type} {r : Rng W} {pop : List α} (hp : pop ≠ []) {cum : List Rat} {k : Nat} {w w' : W}
    {e : Err} (h : r.choicesCum pop cum k w = .err e w') : e = .value := by
  induction k generalizing w w' with
  | zero =>
    simp only [Rng.choicesCum] at h
    split at h
    · cases h; rfl
    · rename_i hl
      have hl : cum.length = pop.length := by simpa using hl
      split at h
      · rename_i he
        have : cum = [] := by simpa using he
        rw [this] at hl
        exact absurd (List.length_eq_zero_iff.1 hl.symm) hp
      · split at h
        · cases h; rfl
        · cases h
  | succ k ih =>
    simp only [Rng.choicesCum] at h
    split at h
    · cases h; rfl
    · rename_i hl
      have hl : cum.length = pop.length := by simpa using hl
      split at h
      · rename_i he
        have : cum = [] := by simpa using he
        rw [this] at hl
        exact absurd (List.length_eq_zero_iff.1 hl.symm) hp
      · rename_i he
        split at h
        · cases h; rfl
        · split at h
          · rename_i hn
            have := weightedIndex_lt (A := r.arith) (cum := cum) (q := (r.unit w).1.val) (by simpa using he)
            rw [List.getElem?_eq_none_iff] at hn
            omega
          · rename_i v hv
            rw [M.bind_eq] at h
            cases hx : r.choicesCum pop cum k (r.unit w).2 with
            | ok a w1 => rw [hx] at h; cases h
            | err e1 w1 => rw [hx] at h; cases h; exact ih hx
            | fuel => rw [hx] at h; cases h

theorem chooseLoop_err {α : Type} [DecidableEq α] {r : Rng W} {k : Nat} {vs : List α} (hk : k ≤ vs.length)
    {ws : List Rat} {w w' : W} {e : Err} (h : chooseLoop r k vs ws w = .err e w') : e = .value := by
  induction k generalizing vs ws w w' with
  | zero => cases h
  | succ k ih =>
    simp only [chooseLoop] at h
    rw [M.bind_eq] at h
    cases hx : r.choicesCum vs (accumulate r.arith ws) 1 w with
    | fuel => rw [hx] at h; cases h
    | err e1 w1 =>
      rw [hx] at h; cases h
      exact choicesCum_err (by intro h; subst h; simp at hk) hx
    | ok ch w1 =>
      rw [hx] at h
      have ⟨h1, h2⟩ := choicesCum_ok hx
      cases ch with
      | nil => simp at h1
      | cons c cs =>
        dsimp only at h
        rw [M.bind_eq] at h
        cases hy : chooseLoop r k (vs.erase c) (ws.erase (ws.getD (vs.idxOf c) 0)) w1 with
        | fuel => rw [hy] at h; cases h
        | ok a w2 => rw [hy] at h; cases h
        | err e1 w2 =>
          rw [hy] at h; cases h
          refine ih ?_ hy
          rw [List.length_erase_of_mem (h2 c (by simp))]
          omega

theorem choose_err {α : Type} [DecidableEq α] {r : Rng W} {k : Int} {vs : List α} {ws : List Rat} {w w' : W}
    {e : Err} (h : chooseWithoutReplacement r vs ws k w = .err e w') : e = .value := by
  unfold chooseWithoutReplacement at h
  split at h
  · cases h; rfl
  · rename_i hk
    dsimp only at h
    generalize (if ws.isEmpty = true then List.replicate vs.length 1 else ws) = ws at h
    split at h
    · cases h; rfl
    · match vs, hk, h with
      | [], _, h => cases h
      | [v], _, h => cases h
      | a :: b :: l, hk, h => exact chooseLoop_err (by omega) h

theorem randint_err {r : Rng W} {a b : Int} {w w' : W} {e : Err} (h : r.randint a b w = .err e w') : e = .value := by
  unfold Rng.randint at h
  split at h
  · cases h
  · cases h; rfl

theorem hasVaried_iff {items : List Item} : hasVariedWeights items = true → VariedWeights items := by
  cases items with
  | nil => simp [hasVariedWeights]
  | cons i is =>
    simp only [hasVariedWeights, List.any_eq_true, decide_eq_true_eq]
    rintro ⟨j, hj, hne⟩
    exact ⟨j, by simp [hj], i, by simp, hne⟩

theorem weightedNext_err {r : Rng W} {items : List Item} (hne : items ≠ []) {buf : List Str} {w w' : W} {e : Err}
    (h : weightedNext r items buf w = .err e w') : e = .value ∧ VariedWeights items ∧ ¬ DrawableItems items := by
  refine ⟨?_, ?_, ?_⟩
  · unfold weightedNext at h
    split at h
    · rw [M.bind_eq] at h
      unfold Rng.choice at h
      cases items with
      | nil => exact absurd rfl hne
      | cons i is => cases h
    · cases buf with
      | cons v buf => cases h
      | nil =>
        dsimp only at h
        rw [M.bind_eq] at h
        cases hx : r.choicesCum (items.map Item.content) (cumWeights r.arith items) 10 w with
        | fuel => rw [hx] at h; cases h
        | err e1 w1 =>
          rw [hx] at h; cases h
          exact choicesCum_err (by simpa using hne) hx
        | ok vs w1 =>
          rw [hx] at h
          have := (choicesCum_ok hx).1
          cases vs with
          | nil => simp at this
          | cons v vs => cases h
  · apply hasVaried_iff
    by_contra hv
    unfold weightedNext at h
    have hv : hasVariedWeights items = false := by simpa using hv
    rw [hv] at h
    simp only [Bool.not_false, if_true] at h
    rw [M.bind_eq] at h
    unfold Rng.choice at h
    cases items with
    | nil => exact absurd rfl hne
    | cons i is => cases h
  · intro hd
    obtain ⟨v, buf', w1, h1⟩ := weightedNext_draws r hne hd buf w
    rw [h1] at h; cases h

namespace Inv
variable {I : Inv E}

section
variable {r : Recs W} (hr : I.RecsOK r)
include hr

theorem startG_F {ctx : Ctx} (hctx : I.COK ctx) {c : Cmd} (hc : I.Q ctx.being c) (hn : ∀ n d, c ≠ .access n d) :
    Errs I.S I.FG (startG E r ctx c) := by
  unfold startG
  cases c with
  | lit t m => exact .pure .rep
  | seq toks sep m =>
    refine (assigns_F hr hctx (fun c h => I.token hc h) (fun n v i o h => I.assigned hc h)).bind fun a ha => ?_
    obtain ⟨toks', new⟩ := a
    have hctx' := hctx.withVars ha.2
    have hm := mkGens_F hctx' (cs := toks') ha.1
    have key : Errs I.S I.FG (do
          let gens ← M.lift (mkGens E.unknown (ctx.withVars new) toks')
          return .seqNF sep gens : M W Gen) :=
      (Errs.lift hm.1 hm.2).bind fun gs hgs => .pure (.seqNF hgs.1)
    cases h : ctx.method with
    | random => exact key
    | cyc => exact key
    | comb =>
      refine (mkColl_F hr hctx' fun c h => ha.1 c (List.mem_of_mem_filter h)).bind fun coll hcoll =>
        .pure (.combSeq hcoll.1 (.start hctx' ?_ ?_))
      · intro c hc
        simp only [List.cons_append, List.mem_cons, List.mem_append, List.not_mem_nil, or_false] at hc
        rcases hc with rfl | hc | rfl
        · exact I.sentinel (h ▸ hctx.method)
        · exact ha.1 c hc
        · exact I.sentinel (h ▸ hctx.method)
      · intro c hc hnf
        rw [hcoll.2]
        have hs : ((ctx.withVars new).effective Verif.sentinel).nonfinite = false := rfl
        simp only [List.cons_append, List.mem_cons, List.mem_append, List.not_mem_nil, or_false] at hc
        rcases hc with rfl | hc | rfl
        · rw [hs] at hnf; cases hnf
        · refine List.mem_filter.2 ⟨hc, ?_⟩
          simp only [decide_eq_true_eq]
          intro hcm
          rw [Ctx.effective, hcm] at hnf
          cases hnf
        · rw [hs] at hnf; cases hnf
  | variant opts lo hi sep m =>
    have hopts : ∀ p ∈ opts, I.Q ctx.being p.1 := fun p h => I.option hc h
    have hb : ∀ (lo hi : Int), ∀ p ∈ boundCombos (opts.map (·.1)) lo hi, ∀ c ∈ p.2, I.Q ctx.being c := by
      intro lo hi p hp c hcp
      simp only [boundCombos, List.mem_flatMap, List.mem_map] at hp
      obtain ⟨b, -, cs, hcs, rfl⟩ := hp
      obtain ⟨q, hq, rfl⟩ := List.mem_map.1 ((mem_getCombos.1 hcs).2.2 c hcp)
      exact hopts q hq
    have hcyc : ∀ l : List (Nat × List Cmd), (∀ p ∈ l, ∀ c ∈ p.2, I.Q ctx.being c) →
        I.FAL (l.map fun p => Arr.start ctx p.2) := by
      intro l hl
      induction l with
      | nil => exact .nil
      | cons a l ih => exact .cons (.start hctx (hl a (by simp))) (ih fun p h => hl p (by simp [h]))
    dsimp only
    split
    · exact .pure .done
    · rename_i path m' v wt
      have hw := hopts _ (List.mem_cons_self ..)
      unfold Recs.wildcardToVariant
      refine Errs.bind (P := fun c => I.Q ctx.being c ∧ ∀ n d, c ≠ .access n d) ?_
        fun v hv => .pure (.start hctx hv.1 hv.2)
      refine (sampleFirst_F hr hctx (wild_path_F hw)).bind fun wc hwc => ?_
      refine (getValues_F hw hwc).bind fun items hitems => ?_
      have hmp := mapM_parse_F (b := ctx.being) (l := iterateWeighted items) (fun v hv => by
        obtain ⟨i, hi', rfl⟩ := mem_iterateWeighted hv
        exact wild_values_F hw hwc hitems i hi')
      refine (Errs.lift hmp.1 hmp.2).bind fun opts ho =>
        .pure ⟨I.expand hc hwc hitems ?_ ho.2, by simp [Cmd.mkVariant]⟩
      intro o ho'
      obtain ⟨h1, v, hv, h2⟩ := ho.1 o ho'
      obtain ⟨i, hi', rfl⟩ := mem_iterateWeighted hv
      exact ⟨h1, i, hi', h2⟩
    · rename_i c _ _
      cases h : ctx.method with
      | random =>
        have := mkGen_F hctx (hopts _ (List.mem_cons_self ..))
        exact .lift this.1 this.2
      | cyc => exact .pure (.cycVar (hcyc _ (hb _ _)))
      | comb => exact .pure (.combVar hctx (hb _ _))
    · rename_i h1 h2 h3
      cases h : ctx.method with
      | random =>
        have hl : 2 ≤ opts.length := by
          match opts, h1, h3 with
          | [], h1, _ => exact absurd rfl h1
          | [(c, wt)], _, h3 => exact absurd rfl (h3 c wt)
          | _ :: _ :: _, _, _ => simp
        refine .pure (.randVar hctx hopts hl ?_)
        by_cases hd : 0 ≤ max lo hi ∧ DrawableWeights (opts.map (·.2)) (max 0 (min (max lo hi) opts.length))
        · exact .inl hd
        · exact .inr (I.weightsErr hc (h ▸ hctx.method) hl hd)
      | cyc => exact .pure (.cycVar (hcyc _ (hb _ _)))
      | comb => exact .pure (.combVar hctx (hb _ _))
  | wild path m vars =>
    refine (sampleFirst_F hr hctx (wild_path_F hc)).bind fun wc hwc => ?_
    refine (getValues_F hc hwc).bind fun vals hvals => ?_
    have hctx' : I.COK (ctx.withVars vars) := hctx.withVars fun b hb => I.param hc hb
    have hiw : ∀ v ∈ iterateWeighted vals, I.TextOK ctx.being v := fun v hv => by
      obtain ⟨i, hi', rfl⟩ := mem_iterateWeighted hv
      exact wild_values_F hc hwc hvals i hi'
    by_cases hv : vals.isEmpty = true
    · simp only [hv, if_true]
      unfold Recs.fallback
      refine Errs.bind (P := fun _ => True) ?_ fun v _ => .pure .rep
      cases path with
      | inl t => exact .pure trivial
      | inr c => exact (sampleFirst_F hr hctx' (p := .inr c) (wild_path_F hc)).weaken fun _ _ => trivial
    · simp only [hv]
      cases h : ctx.method with
      | random =>
        refine .pure (.randWild hctx' (by simpa using hv) (wild_values_F hc hwc hvals) (by simp) ?_)
        by_cases hd : ¬ VariedWeights vals ∨ DrawableItems vals
        · exact .inl hd
        · push Not at hd
          exact .inr (I.itemsErr hc (h ▸ hctx.method) hwc hvals hd.1 hd.2)
      | comb => exact .pure (.combWild hctx' hiw .done)
      | cyc =>
        simp only [Bool.false_eq_true, if_false]
        have := sampleGens_F hctx' hiw
        exact (Errs.lift this.1 this.2).bind fun gs hgs => .pure (.cycWild hgs)
  | assign => exact .raise (I.assignErr hc)
  | access n d => exact absurd rfl (hn n d)
  | wrap wr inn m =>
    cases h : ctx.method with
    | random =>
      have h1 := mkGen_F hctx (I.wrapper hc)
      have h2 := mkGen_F hctx (I.inner hc)
      exact (Errs.lift h1.1 h1.2).bind fun g hg => (Errs.lift h2.1 h2.2).bind fun g' hg' => .pure (.zipWrap hg hg')
    | cyc => exact .raise (I.wrapErr hc (h ▸ hctx.method))
    | comb =>
      have h1 := sampleGen_F (p := .inr wr) hctx (I.wrapper hc)
      exact (Errs.lift h1.1 h1.2).bind fun wg hwg => .pure (.combWrap hctx (I.inner hc) hwg)

theorem stepG_F {g : Gen} (hg : I.FG g) : Errs I.S (After I.FG) (stepG E r g) := by
  cases hg with
  | done => exact .pure trivial
  | start hctx hc hn =>
    rename_i ctx c
    have key : Errs I.S (After I.FG) (do let g ← startG E r ctx c; r.G g) :=
      (startG_F hr hctx hc hn).bind fun g hg => hr.G g hg
    cases c with
    | lit t m =>
      simp only [stepG]
      cases h : ctx.method with
      | comb => exact .pure .done
      | random => exact .pure .rep
      | cyc => exact .pure .rep
    | _ => exact key
  | rep => exact .pure .rep
  | seqNF h => exact (rotate_F hr h).bind fun x hx => .pure (.seqNF hx)
  | randVar hctx hopts hl hd =>
    rename_i ctx opts lo hi sep
    simp only [stepG]
    have hb : 0 ≤ max lo hi → (adjustBounds opts.length lo hi).1 ≤ (adjustBounds opts.length lo hi).2 ∧
        0 ≤ (adjustBounds opts.length lo hi).1 ∧
        (adjustBounds opts.length lo hi).2 = max 0 (min (max lo hi) opts.length) ∧
        max 0 (min (max (adjustBounds opts.length lo hi).1 (adjustBounds opts.length lo hi).2)
          opts.length) = max 0 (min (max lo hi) opts.length) := by
      intro h0
      simp only [adjustBounds, normBounds]; omega
    refine Errs.bind (P := fun k => (adjustBounds opts.length lo hi).1 ≤ k) ?_ fun k hk => ?_
    · intro w
      refine ⟨fun k w' h => (randint_ok h).1, fun e w' h => ?_⟩
      cases randint_err h
      rcases hd with hd | hd
      · obtain ⟨k, w1, hk⟩ := randint_draws E.rng (hb hd.1).1 w
        rw [hk] at h; cases h
      · exact hd
    · refine Errs.bind (P := fun sel => ∀ c ∈ sel, I.Q ctx.being c) ?_ fun sel hsel => ?_
      · intro w
        refine ⟨fun sel w' h c hcs => ?_, fun e w' h => ?_⟩
        · obtain ⟨p, hp, rfl⟩ := List.mem_map.1 ((choose_ok h).1.subset hcs)
          exact hopts p hp
        · cases choose_err h
          rcases hd with hd | hd
          · obtain ⟨sel, w2, hsel⟩ := choose_draws E.rng (opts.map (·.1)) (opts.map (·.2))
              (min (adjustBounds opts.length lo hi).2 k) w (by simp) (by simpa using hl)
              ⟨hd.2.1, by have := hd.2.2; have := hb hd.1; omega⟩
            rw [hsel] at h; cases h
          · exact hd
      · have hg := mkGens_F hctx hsel
        have hnext : I.FG (.randVar ctx opts (adjustBounds opts.length lo hi).1
            (adjustBounds opts.length lo hi).2 sep) := by
          refine .randVar hctx hopts hl ?_
          rcases hd with hd | hd
          · have := hb hd.1
            refine .inl ⟨by omega, ?_⟩
            rw [this.2.2.2]
            exact hd.2
          · exact .inr hd
        refine (Errs.lift hg.1 hg.2).bind fun gs hgs => ?_
        cases gs with
        | nil => exact .pure hnext
        | cons g gs => exact (rotate_F hr hgs.1).bind fun _ _ => .pure hnext
  | randWild hctx hne hi hbuf hd =>
    rename_i ctx items buf
    simp only [stepG]
    refine Errs.bind (P := fun x => x.1 ∈ items.map Item.content ∧ ∀ y ∈ x.2, y ∈ items.map Item.content) ?_
      fun x hx => ?_
    · intro w
      refine ⟨fun x w' h => weightedNext_ok h hbuf, fun e w' h => ?_⟩
      obtain ⟨rfl, h1, h2⟩ := weightedNext_err hne h
      rcases hd with (hd | hd) | hd
      · exact absurd h1 hd
      · exact absurd hd h2
      · exact hd
    · obtain ⟨v, buf'⟩ := x
      obtain ⟨i, hi', rfl⟩ := List.mem_map.1 hx.1
      have hg := sampleGen_F (p := .inl i.content) hctx (hi i hi')
      refine (Errs.lift hg.1 hg.2).bind fun g hg => (hr.G g hg).bind fun y _ => ?_
      cases y with
      | none => exact hr.G _ (.randWild hctx hne hi hx.2 hd)
      | some y => exact .pure (.randWild hctx hne hi hx.2 hd)
  | zipWrap h1 h2 =>
    refine (hr.G _ h1).bind fun x hx => ?_
    cases x with
    | none => exact .pure trivial
    | some x =>
      refine (hr.G _ h2).bind fun y hy => ?_
      cases y with
      | none => exact .pure trivial
      | some y => exact .pure (.zipWrap hx hy)
  | cycVar h =>
    cases h with
    | nil => exact .diverge
    | cons h h' =>
      refine (hr.A _ h).bind fun x hx => ?_
      cases x with
      | none => exact .raise hr.rt
      | some x => exact .pure (.cycVar (h'.append (.cons hx .nil)))
  | cycWild h =>
    cases h with
    | nil => exact .pure trivial
    | cons h h' => exact (next!_F hr h).bind fun x hx => .pure (.cycWild (h'.append (.cons hx .nil)))
  | combSeq h1 h2 =>
    refine (hr.S _ _ h1 h2).bind fun x hx => ?_
    obtain ⟨coll, _ | ⟨vs, fr⟩⟩ := x
    · exact .pure trivial
    · obtain ⟨hx1, hx2, hx3⟩ := hx
      exact .pure (.combSeq hx1 (by dsimp only at hx2; rw [hx2]; exact hx3))
  | combVar hctx hp =>
    rename_i ctx sep seen pend
    cases pend with
    | nil => exact .pure trivial
    | cons p pend =>
      exact hr.G _ (.combVarIn hctx (fun q h => hp q (by simp [h])) (.start hctx (hp p (by simp))))
  | combVarIn hctx hp hfr =>
    rename_i ctx sep seen pend b fr
    refine (hr.P _ hfr).bind fun x hx => ?_
    cases x with
    | none => exact hr.G _ (.combVar hctx hp)
    | some x =>
      dsimp only
      split
      · exact .pure (.combVarIn hctx hp hx)
      · exact hr.G _ (.combVarIn hctx hp hx)
  | combWild hctx hv hcur =>
    rename_i ctx vals cur
    refine (hr.G _ hcur).bind fun x hx => ?_
    cases x with
    | some x => exact .pure (.combWild hctx hv hx)
    | none =>
      cases vals with
      | nil => exact .pure trivial
      | cons v vals =>
        have hg := sampleGen_F (p := .inl v) hctx (hv v (by simp))
        exact (Errs.lift hg.1 hg.2).bind
          fun g hg => hr.G _ (.combWild hctx (fun x h => hv x (by simp [h])) hg)
  | combWrap hctx hi hw =>
    refine (hr.G _ hw).bind fun x hx => ?_
    cases x with
    | none => exact .pure trivial
    | some x =>
      have hg := sampleGen_F (p := .inr _) hctx hi
      exact (Errs.lift hg.1 hg.2).bind fun g hg => hr.G _ (.combWrapIn hctx hi hx hg)
  | combWrapIn hctx hi hw hig =>
    refine (hr.G _ hig).bind fun x hx => ?_
    cases x with
    | none => exact hr.G _ (.combWrap hctx hi hw)
    | some x => exact .pure (.combWrapIn hctx hi hw hx)
  | squash h =>
    refine (hr.G _ h).bind fun x hx => ?_
    cases x with
    | none => exact .pure trivial
    | some x => exact .pure (.squash hx)

theorem stepA_F {a : Arr} (ha : I.FA a) : Errs I.S (After I.FA) (stepA E r a) := by
  cases ha with
  | done => exact .pure trivial
  | nil => exact .pure .nil
  | start hctx hc =>
    rename_i ctx combo
    cases combo with
    | nil => exact .pure .nil
    | cons c cs =>
      have hg := mkGen_F hctx (hc c (by simp))
      exact (Errs.lift hg.1 hg.2).bind fun g hg =>
        hr.A _ (.node hg (.start hctx fun c h => hc c (by simp [h])))
  | node h1 h2 =>
    refine (hr.A _ h2).bind fun x hx => ?_
    cases x with
    | none => exact .pure trivial
    | some x =>
      refine (hr.G _ h1).bind fun y hy => ?_
      cases y with
      | none => exact .pure .done
      | some y => exact .pure (.node hy hx)

theorem stepS_F {coll : Coll} {fr : SFrame} (hcoll : I.FC coll) (hfr : I.FS (coll.map (·.1)) fr) :
    Errs I.S (fun x => I.FC x.1 ∧ x.1.map (·.1) = coll.map (·.1) ∧ After (I.FS (coll.map (·.1))) x.2)
      (stepS E r coll fr) := by
  cases hfr with
  | done => exact .pure ⟨hcoll, rfl, trivial⟩
  | start hctx hc hk =>
    rename_i ctx cs
    cases cs with
    | nil => exact .pure ⟨hcoll, rfl, .done⟩
    | cons c cs =>
      have hcs : ∀ c ∈ cs, I.Q ctx.being c := fun c h => hc c (by simp [h])
      have hks : ∀ c ∈ cs, (ctx.effective c).nonfinite = true → c ∈ coll.map (·.1) :=
        fun c h => hk c (by simp [h])
      simp only [stepS]
      split
      · rename_i hnf
        exact hr.S _ _ hcoll (.nf (hk c (by simp) hnf) (.start hctx hcs hks))
      · have hg := mkGen_F hctx (hc c (by simp))
        exact (Errs.lift hg.1 hg.2).bind fun g hg => hr.S _ _ hcoll (.fin hctx hcs hks hg)
  | nf hk h =>
    refine (hr.S _ _ hcoll h).bind fun x hx => ?_
    obtain ⟨coll', _ | ⟨vs, rest'⟩⟩ := x
    · exact .pure ⟨hx.1, hx.2.1, trivial⟩
    · obtain ⟨h1, h2, h3⟩ := hx
      dsimp only at h1 h2 h3 ⊢
      refine (getValue_F hr h1 (h2 ▸ hk)).bind fun y hy => ?_
      obtain ⟨_ | v, coll''⟩ := y
      · exact .pure ⟨hy.1, hy.2.trans h2, .nf hk h3⟩
      · exact .pure ⟨hy.1, hy.2.trans h2, .nf hk h3⟩
  | fin hctx hc hk hg =>
    refine (hr.G _ hg).bind fun x hx => ?_
    cases x with
    | none => exact .pure ⟨hcoll, rfl, trivial⟩
    | some x => exact hr.S _ _ hcoll (.finIn hctx hc hk hx (.start hctx hc hk))
  | finIn hctx hc hk hg hcur =>
    refine (hr.S _ _ hcoll hcur).bind fun x hx => ?_
    obtain ⟨coll', _ | ⟨vs, cur'⟩⟩ := x
    · obtain ⟨h1, h2, h3⟩ := hx
      dsimp only at h1 h2
      have := hr.S coll' _ h1 (.fin hctx hc (h2 ▸ hk) hg)
      rw [h2] at this
      exact this
    · exact .pure ⟨hx.1, hx.2.1, .finIn hctx hc hk hg hx.2.2⟩

theorem stepP_F {fr : PFrame} (hfr : I.FP fr) : Errs I.S (After I.FP) (stepP E r fr) := by
  cases hfr with
  | done => exact .pure trivial
  | start hctx hc =>
    rename_i ctx cs
    cases cs with
    | nil => exact .pure .done
    | cons c cs =>
      have hcs : ∀ c ∈ cs, I.Q ctx.being c := fun c h => hc c (by simp [h])
      have hg := mkGen_F hctx (hc c (by simp))
      refine (Errs.lift hg.1 hg.2).bind fun g hg => ?_
      split
      · exact hr.P _ (.nf hg (.start hctx hcs))
      · exact hr.P _ (.fin hctx hcs hg)
  | nf hg h =>
    refine (hr.P _ h).bind fun x hx => ?_
    cases x with
    | none => exact .pure trivial
    | some x => exact (next!_F hr hg).bind fun y hy => .pure (.nf hy hx)
  | fin hctx hc hg =>
    refine (hr.G _ hg).bind fun x hx => ?_
    cases x with
    | none => exact .pure trivial
    | some x => exact hr.P _ (.finIn hctx hc hx (.start hctx hc))
  | finIn hctx hc hg hcur =>
    refine (hr.P _ hcur).bind fun x hx => ?_
    cases x with
    | none => exact hr.P _ (.fin hctx hc hg)
    | some x => exact .pure (.finIn hctx hc hg hx)

end

theorem recs_F (hrt : I.S .runtime) (n : Nat) : I.RecsOK (recs E n) := by
  induction n with
  | zero => exact ⟨recs_good E 0, hrt, fun _ _ => .diverge, fun _ _ => .diverge, fun _ _ _ _ => .diverge, fun _ _ => .diverge⟩
  | succ n ih =>
    exact ⟨recs_good E (n + 1), hrt, fun _ => stepG_F ih, fun _ => stepA_F ih, fun _ _ => stepS_F ih, fun _ => stepP_F ih⟩

theorem collect_F (hrt : I.S .runtime) {n k : Nat} {g : Gen} {w w' : W} {e : Err} (hg : I.FG g)
    (h : (collect E n k g w).2 = .raised e w') : I.S e := by
  induction k generalizing g w with
  | zero => cases h
  | succ k ih =>
    have hs := (recs_F hrt n).G g hg w
    unfold collect nextG at h
    cases hx : (recs E n).G g w with
    | ok a w1 =>
      rw [hx] at h
      cases a with
      | none => cases h
      | some x => exact ih (hs.1 _ _ hx) h
    | err e1 w1 => rw [hx] at h; cases h; exact hs.2 _ _ hx
    | fuel => rw [hx] at h; cases h

theorem samplePrompts_F (hrt : I.S .runtime) {n k : Nat} {ctx : Ctx} {p : Prompt} {w w' : W} {e : Err} (hctx : I.COK ctx)
    (hp : I.PromptOK ctx.being p) (h : (samplePrompts E n ctx p k w).2 = .raised e w') : I.S e := by
  have hs := sampleGen_F hctx hp
  unfold samplePrompts at h
  cases hg : sampleGen E ctx p with
  | error e1 => rw [hg] at h; cases h; exact hs.2 _ hg
  | ok g => rw [hg] at h; exact collect_F hrt (hs.1 _ hg) h

end Inv

end Verif
