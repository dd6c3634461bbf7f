import Verif.Spec.Proportions
import Verif.Proofs.Renaming
import Mathlib.Algebra.Order.Ring.Rat
import Mathlib.Algebra.Order.Field.Basic
/-! A template and the template with multiplied weights run in lockstep. -/

namespace Verif
open Spec

/-! ### Multiplying -/

section
variable {q : Rat}

theorem scaleL_map (l : List Cmd) : Cmd.scaleL q l = l.map (Cmd.scale q) := by
  induction l with
  | nil => rfl
  | cons c l ih => simp only [Cmd.scaleL, List.map_cons, ih]

theorem scaleO_map (l : List (Cmd × Rat)) : Cmd.scaleO q l = l.map fun p => (p.1.scale q, q * p.2) := by
  induction l with
  | nil => rfl
  | cons c l ih => simp only [Cmd.scaleO, List.map_cons, ih]

mutual
theorem scale_back {r : Rat} (h : r * q = 1) : ∀ c : Cmd, (c.scale q).scale r = c
  | .lit .. => rfl
  | .seq toks _ _ => by simp only [Cmd.scale, scaleL_back h toks]
  | .variant opts _ _ _ _ => by simp only [Cmd.scale, scaleO_back h opts]
  | .wild (.inl _) _ v => by simp only [Cmd.scale, scaleV_back h v]
  | .wild (.inr p) _ v => by simp only [Cmd.scale, scaleV_back h v, scale_back h p]
  | .assign _ v _ _ => by simp only [Cmd.scale, scale_back h v]
  | .access _ none => by simp only [Cmd.scale]
  | .access _ (some d) => by simp only [Cmd.scale, scale_back h d]
  | .wrap w i _ => by simp only [Cmd.scale, scale_back h w, scale_back h i]
theorem scaleL_back {r : Rat} (h : r * q = 1) : ∀ l : List Cmd, Cmd.scaleL r (Cmd.scaleL q l) = l
  | [] => rfl
  | c :: cs => by simp only [Cmd.scaleL, scale_back h c, scaleL_back h cs]
theorem scaleO_back {r : Rat} (h : r * q = 1) : ∀ l : List (Cmd × Rat), Cmd.scaleO r (Cmd.scaleO q l) = l
  | [] => rfl
  | (c, x) :: cs => by
      simp only [Cmd.scaleO, scale_back h c, scaleO_back h cs, ← mul_assoc, h, one_mul]
theorem scaleV_back {r : Rat} (h : r * q = 1) : ∀ l : List (Str × Cmd), Cmd.scaleV r (Cmd.scaleV q l) = l
  | [] => rfl
  | (_, c) :: cs => by simp only [Cmd.scaleV, scale_back h c, scaleV_back h cs]
end

mutual
theorem scale_one : ∀ c : Cmd, c.scale 1 = c
  | .lit .. => rfl
  | .seq toks _ _ => by simp only [Cmd.scale, scaleL_one toks]
  | .variant opts _ _ _ _ => by simp only [Cmd.scale, scaleO_one opts]
  | .wild (.inl _) _ v => by simp only [Cmd.scale, scaleV_one v]
  | .wild (.inr p) _ v => by simp only [Cmd.scale, scaleV_one v, scale_one p]
  | .assign _ v _ _ => by simp only [Cmd.scale, scale_one v]
  | .access _ none => by simp only [Cmd.scale]
  | .access _ (some d) => by simp only [Cmd.scale, scale_one d]
  | .wrap w i _ => by simp only [Cmd.scale, scale_one w, scale_one i]
theorem scaleL_one : ∀ l : List Cmd, Cmd.scaleL 1 l = l
  | [] => rfl
  | c :: cs => by simp only [Cmd.scaleL, scale_one c, scaleL_one cs]
theorem scaleO_one : ∀ l : List (Cmd × Rat), Cmd.scaleO 1 l = l
  | [] => rfl
  | (c, x) :: cs => by simp only [Cmd.scaleO, scale_one c, scaleO_one cs, one_mul]
theorem scaleV_one : ∀ l : List (Str × Cmd), Cmd.scaleV 1 l = l
  | [] => rfl
  | (_, c) :: cs => by simp only [Cmd.scaleV, scale_one c, scaleV_one cs]
end

theorem scale_injective (h : 0 < q) : Function.Injective (Cmd.scale q) := by
  intro a b hab
  have := inv_mul_cancel₀ h.ne'
  rw [← scale_back this a, hab, scale_back this b]

theorem times_injective (h : 0 < q) : Function.Injective (q * ·) := fun _ _ hab => mul_left_cancel₀ h.ne' hab

theorem scale_method (c : Cmd) : (c.scale q).method = c.method := by
  rcases c with _ | _ | _ | ⟨_ | _, _, _⟩ | _ | ⟨_, _ | _⟩ | _ <;> rfl

theorem scale_truthy (c : Cmd) : (c.scale q).truthy = c.truthy := by
  rcases c with _ | toks | opts | ⟨_ | _, _, _⟩ | _ | ⟨_, _ | _⟩ | _ <;> try rfl
  · simp [Cmd.scale, Cmd.truthy, scaleL_map]
  · simp [Cmd.scale, Cmd.truthy, scaleO_map]

theorem access_scale (n : Str) (d : Option Cmd) : Cmd.scale q (.access n d) = .access n (d.map (Cmd.scale q)) := by
  cases d <;> rfl

theorem not_access_scale {c : Cmd} (h : ∀ n d, c ≠ .access n d) (n : Str) (d : Option Cmd) :
    c.scale q ≠ .access n d := by
  rcases c with _ | _ | _ | ⟨_ | _, _, _⟩ | _ | ⟨_, _ | _⟩ | _ <;>
    first | exact absurd rfl (h _ _) | (intro e; cases e)

theorem err_rename_id (e : Err) : e.rename id = e := by cases e <;> rfl
end

/-! ### Draws -/

section
variable {W α β : Type} {q : Rat}

theorem accumulateFrom_scale {A : Arith} (h : Proportional A q) (acc : Rat) (l : List Rat) :
    accumulateFrom A (q * acc) (l.map (q * ·)) = (accumulateFrom A acc l).map (q * ·) := by
  induction l generalizing acc with
  | nil => rfl
  | cons x l ih => simp only [List.map_cons, accumulateFrom, h.plus, ih]

theorem accumulate_scale {A : Arith} (h : Proportional A q) (l : List Rat) :
    accumulate A (l.map (q * ·)) = (accumulate A l).map (q * ·) := by
  cases l with
  | nil => rfl
  | cons x l => simp only [List.map_cons, accumulate, accumulateFrom_scale h]

theorem getD_scale (l : List Rat) (i : Nat) : (l.map (q * ·)).getD i 0 = q * l.getD i 0 := by
  simp only [List.getD_eq_getElem?_getD, List.getElem?_map]
  cases l[i]? <;> simp

theorem getLastD_scale (l : List Rat) : (l.map (q * ·)).getLastD 0 = q * l.getLastD 0 := by
  rw [List.getLastD_eq_getLast?, List.getLastD_eq_getLast?, List.getLast?_map]
  cases l.getLast? <;> simp

theorem bisectGo_scale (hq : 0 < q) (l : List Rat) (x : Rat) (n lo hi : Nat) :
    bisectGo (l.map (q * ·)) (q * x) n lo hi = bisectGo l x n lo hi := by
  induction n generalizing lo hi with
  | zero => rfl
  | succ n ih =>
    simp only [bisectGo, getD_scale, ih]
    have : q * x < q * l.getD ((lo + hi) / 2) 0 ↔ x < l.getD ((lo + hi) / 2) 0 := mul_lt_mul_iff_right₀ hq
    by_cases h : x < l.getD ((lo + hi) / 2) 0
    · rw [if_pos h, if_pos (this.2 h)]
    · rw [if_neg h, if_neg fun h' => h (this.1 h')]

theorem bisect_scale (hq : 0 < q) (l : List Rat) (x : Rat) (lo hi : Nat) :
    bisectRight (l.map (q * ·)) (q * x) lo hi = bisectRight l x lo hi := bisectGo_scale hq l x _ lo hi

theorem weightedIndex_scale {A : Arith} (h : Proportional A q) (cum : List Rat) (u : Rat) :
    weightedIndex A (cum.map (q * ·)) u = weightedIndex A cum u := by
  unfold weightedIndex
  rw [getLastD_scale, h.times, bisect_scale h.positive, List.length_map]

theorem choicesCum_scale (rng : Rng W) (h : Proportional rng.arith q) (pop : List α) (cum : List Rat) (k : Nat) :
    rng.choicesCum pop (cum.map (q * ·)) k = rng.choicesCum pop cum k := by
  have e : q * cum.getLastD 0 ≤ 0 ↔ cum.getLastD 0 ≤ 0 := by
    constructor
    · intro h'
      by_contra hc
      exact absurd h' (not_le.2 (mul_pos h.positive (not_le.1 hc)))
    · intro h'
      exact mul_nonpos_of_nonneg_of_nonpos h.positive.le h'
  induction k with
  | zero =>
    funext w
    simp only [Rng.choicesCum, List.length_map, List.isEmpty_map, getLastD_scale, e]
  | succ k ih =>
    funext w
    simp only [Rng.choicesCum, List.length_map, List.isEmpty_map, getLastD_scale, e, weightedIndex_scale h, ih]

theorem chooseLoop_scale [DecidableEq α] (rng : Rng W) (h : Proportional rng.arith q) (k : Nat) (values : List α)
    (weights : List Rat) : chooseLoop rng k values (weights.map (q * ·)) = chooseLoop rng k values weights := by
  induction k generalizing values weights with
  | zero => rfl
  | succ k ih =>
    unfold chooseLoop
    rw [accumulate_scale h, choicesCum_scale rng h]
    congr 1
    funext ch
    cases ch with
    | nil => rfl
    | cons c l =>
      dsimp only
      rw [getD_scale, ← List.map_erase (times_injective h.positive), ih]

theorem choose_scale [DecidableEq α] (rng : Rng W) (h : Proportional rng.arith q) (values : List α)
    (weights : List Rat) (k : Int) :
    chooseWithoutReplacement rng values (weights.map (q * ·)) k = chooseWithoutReplacement rng values weights k := by
  unfold chooseWithoutReplacement
  cases weights with
  | nil => rfl
  | cons x l =>
    simp only [List.map_cons, List.isEmpty_cons, Bool.false_eq_true, if_false, List.length_cons, List.length_map]
    have := chooseLoop_scale rng h k.toNat values (x :: l)
    rw [List.map_cons] at this
    rw [this]
end

/-! ### Related states -/

section
variable {W : Type} {E : Env W} {Q : Rat → Prop}

/-- Variables with the same names; the values are multiplied by admissible numbers. -/
inductive VarsS (Q : Rat → Prop) : List (Str × Cmd) → List (Str × Cmd) → Prop
  | nil : VarsS Q [] []
  | cons {n c q vs vs'} : Q q → VarsS Q vs vs' → VarsS Q ((n, c) :: vs) ((n, Cmd.scale q c) :: vs')

inductive CtxS (Q : Rat → Prop) : Ctx → Ctx → Prop
  | mk {m vars vars' being} : VarsS Q vars vars' → CtxS Q ⟨m, vars, being⟩ ⟨m, vars', being⟩

theorem CtxS.method {ctx ctx' : Ctx} (h : CtxS Q ctx ctx') : ctx'.method = ctx.method := by cases h; rfl
theorem CtxS.being {ctx ctx' : Ctx} (h : CtxS Q ctx ctx') : ctx'.being = ctx.being := by cases h; rfl
theorem CtxS.vars {ctx ctx' : Ctx} (h : CtxS Q ctx ctx') : VarsS Q ctx.vars ctx'.vars := by cases h; assumption

theorem VarsS.append {a b a' b' : List (Str × Cmd)} (h : VarsS Q a a') (h' : VarsS Q b b') : VarsS Q (a ++ b) (a' ++ b') := by
  induction h with
  | nil => exact h'
  | cons hq _ ih => exact .cons hq ih

theorem CtxS.withVars {ctx ctx' : Ctx} (h : CtxS Q ctx ctx') {new new' : List (Str × Cmd)} (hn : VarsS Q new new') :
    CtxS Q (ctx.withVars new) (ctx'.withVars new') := by
  cases h with
  | mk hv => exact .mk (hn.append hv)

theorem scaleV_S {q : Rat} (hq : Q q) (v : List (Str × Cmd)) : VarsS Q v (Cmd.scaleV q v) := by
  induction v with
  | nil => exact .nil
  | cons p v ih => exact .cons hq ih

theorem lookup_scale {vars vars' : List (Str × Cmd)} (h : VarsS Q vars vars') (n : Str) :
    (vars.lookup n = none ∧ vars'.lookup n = none) ∨
      ∃ c q, Q q ∧ vars.lookup n = some c ∧ vars'.lookup n = some (c.scale q) := by
  induction h with
  | nil => exact .inl ⟨rfl, rfl⟩
  | @cons x c q vs vs' hq _ ih =>
    simp only [List.lookup_cons]
    by_cases h : n = x
    · subst h; simp only [beq_self_eq_true]; exact .inr ⟨c, q, hq, rfl, rfl⟩
    · simp only [beq_eq_false_iff_ne.2 h]; exact ih

/-- Paths of wildcards. -/
def Path.scale (q : Rat) : Prompt → Prompt
  | .inl s => .inl s
  | .inr c => .inr (c.scale q)

theorem wild_scale (q : Rat) (path : Prompt) (m : Option Method) (v : List (Str × Cmd)) :
    Cmd.scale q (.wild path m v) = .wild (Path.scale q path) m (Cmd.scaleV q v) := by
  cases path <;> rfl

mutual
inductive RS (Q : Rat → Prop) : Gen → Gen → Prop
  | done : RS Q .done .done
  | start {ctx ctx' c q} : CtxS Q ctx ctx' → Q q → RS Q (.start ctx c) (.start ctx' (Cmd.scale q c))
  | rep {s} : RS Q (.rep s) (.rep s)
  | seqNF {sep gens gens'} : RSL Q gens gens' → RS Q (.seqNF sep gens) (.seqNF sep gens')
  | randVar {ctx ctx' opts lo hi sep q} : CtxS Q ctx ctx' → Q q →
      RS Q (.randVar ctx opts lo hi sep) (.randVar ctx' (Cmd.scaleO q opts) lo hi sep)
  | randWild {ctx ctx' items buf} : CtxS Q ctx ctx' → RS Q (.randWild ctx items buf) (.randWild ctx' items buf)
  | zipWrap {wg ig wg' ig'} : RS Q wg wg' → RS Q ig ig' → RS Q (.zipWrap wg ig) (.zipWrap wg' ig')
  | cycVar {sep x x'} : RSAL Q x x' → RS Q (.cycVar sep x) (.cycVar sep x')
  | cycWild {x x'} : RSL Q x x' → RS Q (.cycWild x) (.cycWild x')
  | combSeq {sep coll fr coll' fr' q} : Q q → RSC Q q coll coll' → RSS Q q fr fr' →
      RS Q (.combSeq sep coll fr) (.combSeq sep coll' fr')
  | combVar {ctx ctx' sep seen pend q} : CtxS Q ctx ctx' → Q q →
      RS Q (.combVar ctx sep seen pend) (.combVar ctx' sep seen (pend.map fun p => (p.1, p.2.map (Cmd.scale q))))
  | combVarIn {ctx ctx' sep seen pend b fr fr' q} : CtxS Q ctx ctx' → Q q → RSP Q fr fr' →
      RS Q (.combVarIn ctx sep seen pend b fr)
        (.combVarIn ctx' sep seen (pend.map fun p => (p.1, p.2.map (Cmd.scale q))) b fr')
  | combWild {ctx ctx' vals cur cur'} : CtxS Q ctx ctx' → RS Q cur cur' →
      RS Q (.combWild ctx vals cur) (.combWild ctx' vals cur')
  | combWrap {ctx ctx' inner wg wg' q} : CtxS Q ctx ctx' → Q q → RS Q wg wg' →
      RS Q (.combWrap ctx inner wg) (.combWrap ctx' (Cmd.scale q inner) wg')
  | combWrapIn {ctx ctx' inner wg wg' w ig ig' q} : CtxS Q ctx ctx' → Q q → RS Q wg wg' → RS Q ig ig' →
      RS Q (.combWrapIn ctx inner wg w ig) (.combWrapIn ctx' (Cmd.scale q inner) wg' w ig')
  | squash {g g'} : RS Q g g' → RS Q (.squash g) (.squash g')
inductive RSL (Q : Rat → Prop) : List Gen → List Gen → Prop
  | nil : RSL Q [] []
  | cons {g gs g' gs'} : RS Q g g' → RSL Q gs gs' → RSL Q (g :: gs) (g' :: gs')
inductive RSC (Q : Rat → Prop) : Rat → Coll → Coll → Prop
  | nil {q} : RSC Q q [] []
  | cons {c g g' v cs cs' q} : RS Q g g' → RSC Q q cs cs' → RSC Q q ((c, g, v) :: cs) ((Cmd.scale q c, g', v) :: cs')
inductive RSA (Q : Rat → Prop) : Arr → Arr → Prop
  | done : RSA Q .done .done
  | start {ctx ctx' combo q} : CtxS Q ctx ctx' → Q q →
      RSA Q (.start ctx combo) (.start ctx' (combo.map (Cmd.scale q)))
  | nil : RSA Q .nil .nil
  | node {g g' rest rest'} : RS Q g g' → RSA Q rest rest' → RSA Q (.node g rest) (.node g' rest')
inductive RSAL (Q : Rat → Prop) : List Arr → List Arr → Prop
  | nil : RSAL Q [] []
  | cons {g g' gs gs'} : RSA Q g g' → RSAL Q gs gs' → RSAL Q (g :: gs) (g' :: gs')
inductive RSS (Q : Rat → Prop) : Rat → SFrame → SFrame → Prop
  | done {q} : RSS Q q .done .done
  | start {ctx ctx' cs q} : CtxS Q ctx ctx' → RSS Q q (.start ctx cs) (.start ctx' (cs.map (Cmd.scale q)))
  | nf {c rest rest' q} : RSS Q q rest rest' → RSS Q q (.nf c rest) (.nf (Cmd.scale q c) rest')
  | fin {ctx ctx' rest g g' q} : CtxS Q ctx ctx' → RS Q g g' →
      RSS Q q (.fin ctx rest g) (.fin ctx' (rest.map (Cmd.scale q)) g')
  | finIn {ctx ctx' rest g g' v cur cur' q} : CtxS Q ctx ctx' → RS Q g g' →
      RSS Q q cur cur' → RSS Q q (.finIn ctx rest g v cur) (.finIn ctx' (rest.map (Cmd.scale q)) g' v cur')
inductive RSP (Q : Rat → Prop) : PFrame → PFrame → Prop
  | done : RSP Q .done .done
  | start {ctx ctx' cs q} : CtxS Q ctx ctx' → Q q → RSP Q (.start ctx cs) (.start ctx' (cs.map (Cmd.scale q)))
  | nf {g g' rest rest'} : RS Q g g' → RSP Q rest rest' → RSP Q (.nf g rest) (.nf g' rest')
  | fin {ctx ctx' rest g g' q} : CtxS Q ctx ctx' → Q q → RS Q g g' →
      RSP Q (.fin ctx rest g) (.fin ctx' (rest.map (Cmd.scale q)) g')
  | finIn {ctx ctx' rest g g' v cur cur' q} : CtxS Q ctx ctx' → Q q → RS Q g g' →
      RSP Q cur cur' → RSP Q (.finIn ctx rest g v cur) (.finIn ctx' (rest.map (Cmd.scale q)) g' v cur')
end

theorem RSL.append {xs ys xs' ys' : List Gen} (hx : RSL Q xs xs') (hy : RSL Q ys ys') : RSL Q (xs ++ ys) (xs' ++ ys') := by
  match hx with
  | .nil => exact hy
  | .cons h h' => exact .cons h (RSL.append h' hy)

theorem RSAL.append {xs ys xs' ys' : List Arr} (hx : RSAL Q xs xs') (hy : RSAL Q ys ys') :
    RSAL Q (xs ++ ys) (xs' ++ ys') := by
  match hx with
  | .nil => exact hy
  | .cons h h' => exact .cons h (RSAL.append h' hy)

/-- The admissible numbers: one, and such that multiplying by them is exact. -/
structure Factors (E : Env W) (Q : Rat → Prop) : Prop where
  one : Q 1
  exact : ∀ q, Q q → Proportional E.rng.arith q

section
variable (hQ : Factors E Q)
include hQ

theorem resolves_scale {vars vars' : List (Str × Cmd)} (hv : VarsS Q vars vars') {n : Str} {d : Option Cmd} {c : Cmd}
    {q : Rat} (hq : Q q) (h : Resolves E.unknown vars n d c) :
    ∃ q', Q q' ∧ Resolves E.unknown vars' n (d.map (Cmd.scale q)) (c.scale q') := by
  rcases lookup_scale hv n with ⟨h1, h2⟩ | ⟨c1, q1, hq1, h1, h2⟩
  · cases h with
    | var h h' => rw [h1] at h; cases h
    | default h h' => exact ⟨q, hq, .default h2 (by rw [scale_truthy]; exact h')⟩
    | unknownEmpty h h' e => rw [h1] at h; cases h
    | unknownEmptyDefault h h' e =>
      exact ⟨1, hQ.one, by rw [scale_one]; exact .unknownEmptyDefault h2 (by rw [scale_truthy]; exact h') e⟩
    | unknown h e => exact ⟨1, hQ.one, by rw [scale_one]; exact .unknown h2 e⟩
  · cases h with
    | var h h' =>
      rw [h1] at h; cases h
      exact ⟨q1, hq1, .var h2 (by rw [scale_truthy]; exact h')⟩
    | default h h' => rw [h1] at h; cases h
    | unknownEmpty h h' e =>
      rw [h1] at h; cases h
      exact ⟨1, hQ.one, by rw [scale_one]; exact .unknownEmpty h2 (by rw [scale_truthy]; exact h') e⟩
    | unknownEmptyDefault h h' e => rw [h1] at h; cases h
    | unknown h e => rw [h1] at h; cases h

/-- The ends of chains of variables. -/
inductive OutS (Q : Rat → Prop) : Outcome → Outcome → Prop
  | target {b c q} : Q q → OutS Q (.target b c) (.target b (Cmd.scale q c))
  | undefined {n} : OutS Q (.undefined n) (.undefined n)
  | recursion {n} : OutS Q (.recursion n) (.recursion n)

theorem chain_scale {vars vars' : List (Str × Cmd)} (hv : VarsS Q vars vars') {being : List Str} {c : Cmd} {o : Outcome}
    {q : Rat} (hq : Q q) (h : Chain E.unknown vars being c o) :
    ∃ o', OutS Q o o' ∧ Chain E.unknown vars' being (c.scale q) o' := by
  induction h generalizing q with
  | target h => exact ⟨_, .target hq, .target (not_access_scale h)⟩
  | undefined h =>
    rw [access_scale]
    refine ⟨_, .undefined, .undefined ⟨h.1, ?_⟩⟩
    have h2 := h.2
    rcases lookup_scale hv _ with ⟨h3, h4⟩ | ⟨c1, q1, hq1, h3, h4⟩
    · rw [h3] at h2
      rw [h4]
      intro d' hd'
      obtain ⟨x, hx, rfl⟩ := Option.map_eq_some_iff.1 hd'
      rw [scale_truthy]; exact h2 x hx
    · rw [h3] at h2
      rw [h4]
      simp only [scale_truthy]; exact h2
  | loop hr hm =>
    rw [access_scale]
    obtain ⟨q', hq', h⟩ := resolves_scale hQ hv hq hr
    exact ⟨_, .recursion, .loop h hm⟩
  | step hr hm _ ih =>
    rw [access_scale]
    obtain ⟨q', hq', h⟩ := resolves_scale hQ hv hq hr
    obtain ⟨o', h1, h2⟩ := ih hq'
    exact ⟨o', h1, .step h hm h2⟩

theorem mkGen_RS {ctx ctx' : Ctx} {c : Cmd} {q : Rat} (hctx : CtxS Q ctx ctx') (hq : Q q) :
    LiftMirror id (RS Q) (mkGen E.unknown ctx c) (mkGen E.unknown ctx' (c.scale q)) := by
  obtain ⟨o, ho⟩ := chain_total E.unknown ctx.vars ctx.being c
  obtain ⟨o', h1, h2⟩ := chain_scale hQ hctx.vars hq ho
  rw [← hctx.being] at h2
  rw [mkGen_outcome ho, mkGen_outcome (ctx := ctx') h2]
  cases h1 with
  | undefined => exact rfl
  | recursion => exact rfl
  | @target b c' q' hq' =>
    have key : RS Q (.start ⟨effMethod ctx.method c'.method, ctx.vars, b⟩ c')
        (.start ⟨effMethod ctx'.method (c'.scale q').method, ctx'.vars, b⟩ (c'.scale q')) := by
      rw [scale_method, hctx.method]
      exact .start (.mk hctx.vars) hq'
    have hme := hctx.method
    rcases c' with _ | _ | _ | ⟨_ | _, _, _⟩ | _ | ⟨_, _ | _⟩ | ⟨_, _, m⟩
    case wrap =>
      simp only [outcomeGen, Cmd.scale, Cmd.method] at key ⊢
      rw [hme] at key ⊢
      show LiftMirror id (RS Q) (if effMethod ctx.method m = .cyc then _ else _)
        (if effMethod ctx.method m = .cyc then _ else _)
      split
      · exact rfl
      · exact key
    all_goals first | exact key | exact rfl

theorem mkGens_RS {ctx ctx' : Ctx} {cs : List Cmd} {q : Rat} (hctx : CtxS Q ctx ctx') (hq : Q q) :
    LiftMirror id (RSL Q) (mkGens E.unknown ctx cs) (mkGens E.unknown ctx' (cs.map (Cmd.scale q))) := by
  induction cs with
  | nil => exact .nil
  | cons c cs ih =>
    simp only [mkGens, List.map_cons]
    rcases (mkGen_RS hQ (c := c) hctx hq).cases with ⟨e, h1, h2⟩ | ⟨g, g', h1, h2, h3⟩
    · rw [h1, h2]; exact rfl
    · rw [h1, h2]
      rcases ih.cases with ⟨e, h4, h5⟩ | ⟨gs, gs', h4, h5, h6⟩
      · simp only [h4, h5]; exact rfl
      · simp only [h4, h5]; exact .cons h3 h6

theorem sampleGen_RS {ctx ctx' : Ctx} {p : Prompt} {q : Rat} (hctx : CtxS Q ctx ctx') (hq : Q q) :
    LiftMirror id (RS Q) (sampleGen E ctx p) (sampleGen E ctx' (Path.scale q p)) := by
  have key : ∀ c q, Q q → LiftMirror id (RS Q) (match mkGen E.unknown ctx c with
        | .error e => .error e
        | .ok g => .ok (if E.ignoreWs then .squash g else g) : Except Err Gen)
      (match mkGen E.unknown ctx' (c.scale q) with
        | .error e => .error e
        | .ok g => .ok (if E.ignoreWs then .squash g else g) : Except Err Gen) := by
    intro c q hq
    rcases (mkGen_RS hQ (c := c) hctx hq).cases with ⟨e, h1, h2⟩ | ⟨g, g', h1, h2, h3⟩
    · rw [h1, h2]; exact rfl
    · rw [h1, h2]
      cases E.ignoreWs
      · exact h3
      · exact .squash h3
  cases p with
  | inl s =>
    simp only [sampleGen, Path.scale]
    by_cases hs : s.isEmpty = true
    · rw [if_pos hs, if_pos hs]; exact .done
    · rw [if_neg hs, if_neg hs]
      cases h1 : E.parse s with
      | error e => exact (err_rename_id e).symm
      | ok c =>
        have := key c 1 hQ.one
        rw [scale_one] at this
        exact this
  | inr c =>
    simp only [sampleGen, Path.scale, scale_truthy]
    cases h : c.truthy
    · exact .done
    · exact key c q hq

theorem sampleText_RS {ctx ctx' : Ctx} {s : Str} (hctx : CtxS Q ctx ctx') :
    LiftMirror id (RS Q) (sampleGen E ctx (.inl s)) (sampleGen E ctx' (.inl s)) :=
  sampleGen_RS hQ (p := .inl s) hctx hQ.one

theorem sampleGens_RS {ctx ctx' : Ctx} {ps : List Str} (hctx : CtxS Q ctx ctx') :
    LiftMirror id (RSL Q) (sampleGens E ctx ps) (sampleGens E ctx' ps) := by
  induction ps with
  | nil => exact .nil
  | cons s ps ih =>
    simp only [sampleGens]
    rcases (sampleText_RS hQ (s := s) hctx).cases with ⟨e, h1, h2⟩ | ⟨g, g', h1, h2, h3⟩
    · rw [h1, h2]; exact rfl
    · rw [h1, h2]
      rcases ih.cases with ⟨e, h4, h5⟩ | ⟨gs, gs', h4, h5, h6⟩
      · simp only [h4, h5]; exact rfl
      · simp only [h4, h5]; exact .cons h3 h6
end

/-! ### Lockstep -/

structure RecsRS (Q : Rat → Prop) (r : Recs W) : Prop where
  G : ∀ g g', RS Q g g' → Mirror id (SameText (RS Q)) (r.G g) (r.G g')
  A : ∀ a a', RSA Q a a' → Mirror id (SameText (RSA Q)) (r.A a) (r.A a')
  S : ∀ q coll coll' fr fr', Q q → RSC Q q coll coll' → RSS Q q fr fr' →
    Mirror id (fun x y => RSC Q q x.1 y.1 ∧ SameText (RSS Q q) x.2 y.2) (r.S coll fr) (r.S coll' fr')
  P : ∀ fr fr', RSP Q fr fr' → Mirror id (SameText (RSP Q)) (r.P fr) (r.P fr')

section
variable (hQ : Factors E Q) {r : Recs W} (hr : RecsRS Q r)
include hr

theorem next!_RS {g g' : Gen} (hg : RS Q g g') :
    Mirror id (fun x y => y.1 = x.1 ∧ RS Q x.2 y.2) (r.next! g) (r.next! g') := by
  unfold Recs.next!
  refine (hr.G g g' hg).bind fun a b hab => ?_
  rcases hab.cases with ⟨rfl, rfl⟩ | ⟨v, x, y, rfl, rfl, h⟩
  · exact .raise rfl
  · exact .pure ⟨rfl, h⟩

theorem rotate_RS {gs gs' : List Gen} (hg : RSL Q gs gs') :
    Mirror id (fun x y => y.1 = x.1 ∧ RSL Q x.2 y.2) (r.rotate gs) (r.rotate gs') := by
  match hg with
  | .nil => exact .pure ⟨rfl, .nil⟩
  | .cons h h' =>
    unfold Recs.rotate
    exact (next!_RS hr h).bind fun x y hx => (rotate_RS h').bind fun x' y' hy =>
      .pure ⟨by simp only [hx.1, hy.1], .cons hx.2 hy.2⟩

include hQ

theorem sampleFirst_RS {ctx ctx' : Ctx} {p : Prompt} {q : Rat} (hctx : CtxS Q ctx ctx') (hq : Q q) :
    Mirror id (fun a b => a = b) (r.sampleFirst E ctx p) (r.sampleFirst E ctx' (Path.scale q p)) := by
  unfold Recs.sampleFirst
  exact (Mirror.lift (sampleGen_RS hQ hctx hq)).bind fun g g' hg =>
    (next!_RS hr hg).bind fun x y hx => .pure hx.1.symm

theorem assign_RS {ctx ctx' : Ctx} (hctx : CtxS Q ctx ctx') (name : Str) {value : Cmd} (i o : Bool) {q : Rat} (hq : Q q) :
    Mirror id (fun a b => ∃ q', Q q' ∧ b = a.scale q') (r.assign E ctx name value i o)
      (r.assign E ctx' name (value.scale q) i o) := by
  unfold Recs.assign
  have none' : Mirror id (fun a b => ∃ q', Q q' ∧ b = a.scale q')
      (r.assign E ctx name value i true) (r.assign E ctx' name (value.scale q) i true) := by
    unfold Recs.assign
    simp only [if_true]
    cases i with
    | false => exact .pure ⟨q, hq, rfl⟩
    | true =>
      simp only [if_true]
      have key : Mirror id (fun a b => ∃ q', Q q' ∧ b = a.scale q') (do
          let g ← M.lift (mkGen E.unknown ctx value)
          let (v, _) ← r.next! g
          return Cmd.lit v none) (do
          let g ← M.lift (mkGen E.unknown ctx' (value.scale q))
          let (v, _) ← r.next! g
          return Cmd.lit v none) :=
        (Mirror.lift (mkGen_RS hQ hctx hq)).bind fun g g' hg =>
          (next!_RS hr hg).bind fun x y hx => .pure ⟨1, hQ.one, by rw [hx.1]; rfl⟩
      rcases value with _ | _ | _ | ⟨_ | _, _, _⟩ | _ | ⟨_, _ | _⟩ | _ <;>
        first | exact Mirror.pure ⟨q, hq, rfl⟩ | exact key
  cases o with
  | true => exact none'
  | false =>
    simp only [Bool.false_eq_true, if_false]
    rcases lookup_scale hctx.vars name with ⟨h1, h2⟩ | ⟨c1, q1, hq1, h1, h2⟩
    · rw [h1, h2]
      unfold Recs.assign at none'
      exact none'
    · rw [h1, h2]
      exact .pure ⟨q1, hq1, rfl⟩

theorem assigns_RS {ctx ctx' : Ctx} (hctx : CtxS Q ctx ctx') {cs : List Cmd} {q : Rat} (hq : Q q) :
    Mirror id (fun x y => y.1 = x.1.map (Cmd.scale q) ∧ VarsS Q x.2 y.2) (r.assigns E ctx cs)
      (r.assigns E ctx' (cs.map (Cmd.scale q))) := by
  induction cs with
  | nil => exact .pure ⟨rfl, .nil⟩
  | cons c cs ih =>
    have tok : Mirror id (fun x y => y.1 = x.1.map (Cmd.scale q) ∧ VarsS Q x.2 y.2) (do
          let (toks, new) ← r.assigns E ctx cs
          return (c :: toks, new)) (do
          let (toks, new) ← r.assigns E ctx' (cs.map (Cmd.scale q))
          return (c.scale q :: toks, new)) := by
      refine ih.bind fun x y hxy => .pure ?_
      exact ⟨by simp only [hxy.1, List.map_cons], hxy.2⟩
    rcases c with _ | _ | _ | ⟨_ | _, _, _⟩ | ⟨n, v, i, o⟩ | ⟨_, _ | _⟩ | _
    case assign =>
      simp only [Recs.assigns, List.map_cons, Cmd.scale]
      refine (assign_RS hQ hr hctx n i o hq).bind fun a b hab => ih.bind fun x y hxy => .pure ?_
      obtain ⟨q', hq', rfl⟩ := hab
      exact ⟨hxy.1, hxy.2.append (.cons hq' .nil)⟩
    all_goals exact tok

omit hQ in
theorem firstValues_RS {cs : List Cmd} {gs gs' : List Gen} (q : Rat) (h : RSL Q gs gs') :
    Mirror id (RSC Q q) (r.firstValues (cs.zip gs)) (r.firstValues ((cs.map (Cmd.scale q)).zip gs')) := by
  match cs, h with
  | [], _ => exact .pure .nil
  | c :: cs, .nil => exact .pure .nil
  | c :: cs, .cons h h' =>
    simp only [List.map_cons, List.zip_cons_cons, Recs.firstValues]
    exact (next!_RS hr h).bind fun x y hx => (firstValues_RS q h').bind fun a b hab => .pure (by
      rw [hx.1]; exact .cons hx.2 hab)

theorem mkColl_RS {ctx ctx' : Ctx} (hctx : CtxS Q ctx ctx') {cs : List Cmd} {q : Rat} (hq : Q q) :
    Mirror id (RSC Q q) (r.mkColl E ctx cs) (r.mkColl E ctx' (cs.map (Cmd.scale q))) := by
  unfold Recs.mkColl
  exact (Mirror.lift (mkGens_RS hQ hctx hq)).bind fun gs gs' hgs => firstValues_RS hr q hgs

theorem getValue_RS (c : Cmd) {coll coll' : Coll} {q : Rat} (hq : Q q) (h : RSC Q q coll coll') :
    Mirror id (fun x y => y.1 = x.1 ∧ RSC Q q x.2 y.2) (r.getValue c coll) (r.getValue (c.scale q) coll') := by
  match h with
  | .nil => exact .raise rfl
  | .cons (c := c') (g := g) (v := v) h1 h2 =>
    unfold Recs.getValue
    by_cases hc : c' = c
    · subst hc
      simp only [if_true]
      refine (hr.G _ _ h1).bind fun x y hx => ?_
      rcases hx.cases with ⟨rfl, rfl⟩ | ⟨v, x, y, rfl, rfl, h⟩
      · exact .pure ⟨rfl, .cons .done h2⟩
      · exact .pure ⟨rfl, .cons h h2⟩
    · have hc' : c'.scale q ≠ c.scale q := fun e => hc (scale_injective (hQ.exact q hq).positive e)
      simp only [hc, hc', if_false]
      exact (getValue_RS c hq h2).bind fun x y hx => .pure ⟨hx.1, .cons h1 hx.2⟩

omit hr in
theorem combos_scaled (opts : List (Cmd × Rat)) (lo hi : Int) {q : Rat} (hq : Q q) :
    boundCombos ((Cmd.scaleO q opts).map (·.1)) lo hi =
      (boundCombos (opts.map (·.1)) lo hi).map fun p => (p.1, p.2.map (Cmd.scale q)) := by
  rw [← boundCombos_renamed (scale_injective (hQ.exact q hq).positive), scaleO_map, List.map_map, List.map_map]
  rfl

omit hQ hr in
theorem arrs_RS {ctx ctx' : Ctx} (hctx : CtxS Q ctx ctx') (l : List (Nat × List Cmd)) {q : Rat} (hq : Q q) :
    RSAL Q (l.map fun p => Arr.start ctx p.2)
      ((l.map fun p => (p.1, p.2.map (Cmd.scale q))).map fun p => Arr.start ctx' p.2) := by
  induction l with
  | nil => exact .nil
  | cons a l ih => exact .cons (.start hctx hq) ih

omit hQ hr in
theorem same_mirror {α : Type} (x : M W α) : Mirror id Eq x x := .self fun _ e _ _ => err_rename_id e

theorem variant_RS {ctx ctx' : Ctx} (hctx : CtxS Q ctx ctx') {opts : List (Cmd × Rat)} {lo hi : Int} {sep : Str}
    {m : Option Method} {q : Rat} (hq : Q q) :
    Mirror id (RS Q) (startG E r ctx (.variant opts lo hi sep m))
      (startG E r ctx' (.variant (Cmd.scaleO q opts) lo hi sep m)) := by
  have hme := hctx.method
  have several : ∀ n : Nat, Mirror id (RS Q)
      (match ctx.method with
        | .random => pure (.randVar ctx opts lo hi sep)
        | .cyc => pure (.cycVar sep ((boundCombos (opts.map (·.1)) (adjustBounds n lo hi).1 (adjustBounds n lo hi).2).map
            (fun p => Arr.start ctx p.2)))
        | .comb => pure (.combVar ctx sep [] (boundCombos (opts.map (·.1)) (adjustBounds n lo hi).1
            (adjustBounds n lo hi).2)) : M W Gen)
      (match ctx.method with
        | .random => pure (.randVar ctx' (Cmd.scaleO q opts) lo hi sep)
        | .cyc => pure (.cycVar sep ((boundCombos ((Cmd.scaleO q opts).map (·.1)) (adjustBounds n lo hi).1
            (adjustBounds n lo hi).2).map (fun p => Arr.start ctx' p.2)))
        | .comb => pure (.combVar ctx' sep [] (boundCombos ((Cmd.scaleO q opts).map (·.1))
            (adjustBounds n lo hi).1 (adjustBounds n lo hi).2)) : M W Gen) := by
    intro n
    cases ctx.method with
    | random => exact .pure (.randVar hctx hq)
    | cyc =>
      rw [combos_scaled hQ _ _ _ hq]
      exact .pure (.cycVar (arrs_RS hctx _ hq))
    | comb =>
      rw [combos_scaled hQ _ _ _ hq]
      exact .pure (.combVar hctx hq)
  match opts, several with
  | [], _ => exact .pure .done
  | [(c, x)], several =>
    by_cases hw : ∃ path m' v, c = .wild path m' v
    · obtain ⟨path, m', v, rfl⟩ := hw
      simp only [Cmd.scaleO, wild_scale, startG]
      unfold Recs.wildcardToVariant
      refine Mirror.bind (P := Eq) ?_ fun a b hab => ?_
      · refine (sampleFirst_RS hQ hr hctx hq).bind fun wc wc' hwc => ?_
        subst hwc
        exact same_mirror _
      · subst hab
        have : RS Q (.start ctx a) (.start ctx' (a.scale 1)) := .start hctx hQ.one
        rw [scale_one] at this
        exact .pure this
    · have e : startG E r ctx (.variant [(c, x)] lo hi sep m) =
          (match ctx.method with
          | .random => M.lift (mkGen E.unknown ctx c)
          | .cyc => pure (.cycVar sep ((boundCombos [c] (adjustBounds 1 lo hi).1 (adjustBounds 1 lo hi).2).map
              (fun p => Arr.start ctx p.2)))
          | .comb => pure (.combVar ctx sep [] (boundCombos [c] (adjustBounds 1 lo hi).1 (adjustBounds 1 lo hi).2))) := by
        cases c <;> first | rfl | exact absurd ⟨_, _, _, rfl⟩ hw
      have e' : startG E r ctx' (.variant [(c.scale q, q * x)] lo hi sep m) =
          (match ctx.method with
          | .random => M.lift (mkGen E.unknown ctx' (c.scale q))
          | .cyc => pure (.cycVar sep ((boundCombos [c.scale q] (adjustBounds 1 lo hi).1 (adjustBounds 1 lo hi).2).map
              (fun p => Arr.start ctx' p.2)))
          | .comb => pure (.combVar ctx' sep [] (boundCombos [c.scale q] (adjustBounds 1 lo hi).1
              (adjustBounds 1 lo hi).2))) := by
        rw [← hme]
        rcases c with _ | _ | _ | ⟨_ | _, _, _⟩ | _ | ⟨_, _ | _⟩ | _ <;> first | rfl | exact absurd ⟨_, _, _, rfl⟩ hw
      show Mirror id (RS Q) _ (startG E r ctx' (.variant [(c.scale q, q * x)] lo hi sep m))
      rw [e, e']
      have := several 1
      cases hme : ctx.method with
      | random => exact .lift (mkGen_RS hQ hctx hq)
      | cyc => rw [hme] at this; exact this
      | comb => rw [hme] at this; exact this
  | a :: b :: opts, several =>
    have := several (a :: b :: opts).length
    have h1 : ∀ (ctx : Ctx) (a b : Cmd × Rat) (l : List (Cmd × Rat)), startG E r ctx (.variant (a :: b :: l) lo hi sep m) =
        (match ctx.method with
        | .random => pure (.randVar ctx (a :: b :: l) lo hi sep)
        | .cyc => pure (.cycVar sep ((boundCombos ((a :: b :: l).map (·.1)) (adjustBounds (a :: b :: l).length lo hi).1
            (adjustBounds (a :: b :: l).length lo hi).2).map (fun p => Arr.start ctx p.2)))
        | .comb => pure (.combVar ctx sep [] (boundCombos ((a :: b :: l).map (·.1))
            (adjustBounds (a :: b :: l).length lo hi).1 (adjustBounds (a :: b :: l).length lo hi).2)) : M W Gen) := by
      intro ctx a b l
      obtain ⟨c, x⟩ := a
      cases c <;> rfl
    have e : Cmd.scaleO q (a :: b :: opts) = (a.1.scale q, q * a.2) :: (b.1.scale q, q * b.2) :: Cmd.scaleO q opts := rfl
    have hl : ((a.1.scale q, q * a.2) :: (b.1.scale q, q * b.2) :: Cmd.scaleO q opts).length = (a :: b :: opts).length := by
      simp [scaleO_map]
    rw [e] at this ⊢
    rw [h1, h1, hl, hme]
    exact this

theorem startG_RS {ctx ctx' : Ctx} (hctx : CtxS Q ctx ctx') {c : Cmd} {q : Rat} (hq : Q q) :
    Mirror id (RS Q) (startG E r ctx c) (startG E r ctx' (c.scale q)) := by
  have hme := hctx.method
  cases c with
  | lit t m => exact .pure .rep
  | variant opts lo hi sep m => exact variant_RS hQ hr hctx hq
  | seq toks sep m =>
    simp only [Cmd.scale, startG, scaleL_map]
    refine (assigns_RS hQ hr hctx hq).bind fun a b hab => ?_
    obtain ⟨toks', new⟩ := a
    obtain ⟨toks'', new'⟩ := b
    obtain ⟨h1, h2⟩ := hab
    dsimp only at h1 h2
    subst h1
    have hctx' := hctx.withVars h2
    have key : Mirror id (RS Q) (do
          let gens ← M.lift (mkGens E.unknown (ctx.withVars new) toks')
          return .seqNF sep gens : M W Gen) (do
          let gens ← M.lift (mkGens E.unknown (ctx'.withVars new') (toks'.map (Cmd.scale q)))
          return .seqNF sep gens) :=
      (Mirror.lift (mkGens_RS hQ hctx' hq)).bind fun gs gs' hgs => .pure (.seqNF hgs)
    simp only [hme]
    cases h : ctx.method with
    | random => exact key
    | cyc => exact key
    | comb =>
      have hf : (toks'.map (Cmd.scale q)).filter (fun c => c.method ≠ some .comb) =
          (toks'.filter fun c => c.method ≠ some .comb).map (Cmd.scale q) := by
        rw [List.filter_map]
        congr 1
        apply List.filter_congr
        intro x _
        simp [scale_method]
      show Mirror id (RS Q) _ (do
        let coll ← r.mkColl E (ctx'.withVars new')
          ((toks'.map (Cmd.scale q)).filter (fun c => c.method ≠ some .comb))
        return .combSeq sep coll (.start (ctx'.withVars new') (sentinel :: toks'.map (Cmd.scale q) ++ [sentinel])))
      rw [hf]
      refine (mkColl_RS hQ hr hctx' hq).bind fun coll coll' hcoll => .pure ?_
      have e : sentinel :: toks'.map (Cmd.scale q) ++ [sentinel] = (sentinel :: toks' ++ [sentinel]).map (Cmd.scale q) := by
        simp [sentinel, Cmd.scale]
      rw [e]
      exact .combSeq hq hcoll (.start hctx')
  | wild path m vars =>
    simp only [wild_scale, startG]
    refine (sampleFirst_RS hQ hr hctx hq).bind fun wc wc' hwc => ?_
    subst hwc
    refine (same_mirror (E.getValues wc)).bind fun vals vals' hvals => ?_
    subst hvals
    have hctx' : CtxS Q (ctx.withVars vars) (ctx'.withVars (Cmd.scaleV q vars)) := hctx.withVars (scaleV_S hq vars)
    by_cases hv : vals.isEmpty = true
    · rw [if_pos hv, if_pos hv]
      unfold Recs.fallback
      refine Mirror.bind (P := Eq) ?_ fun v v' h => .pure (by rw [h]; exact .rep)
      cases path with
      | inl t => exact .pure rfl
      | inr c => exact sampleFirst_RS hQ hr hctx' (p := .inr c) hq
    · rw [if_neg hv, if_neg hv]
      simp only [hme]
      cases h : ctx.method with
      | random => exact .pure (.randWild hctx')
      | comb => exact .pure (.combWild hctx' .done)
      | cyc =>
        exact (Mirror.lift (sampleGens_RS hQ hctx')).bind
          fun gs gs' hgs => .pure (.cycWild hgs)
  | assign => exact .raise rfl
  | access n d => rw [access_scale]; exact .raise rfl
  | wrap wr inn m =>
    simp only [Cmd.scale, startG, hme]
    cases h : ctx.method with
    | random =>
      exact (Mirror.lift (mkGen_RS hQ hctx hq)).bind fun wg wg' hwg =>
        (Mirror.lift (mkGen_RS hQ hctx hq)).bind fun ig ig' hig => .pure (.zipWrap hwg hig)
    | cyc => exact .raise rfl
    | comb =>
      exact (Mirror.lift (sampleGen_RS hQ hctx (p := .inr wr) hq)).bind
        fun wg wg' hwg => .pure (.combWrap hctx hq hwg)

theorem stepG_RS {g g' : Gen} (hg : RS Q g g') :
    Mirror id (SameText (RS Q)) (stepG E r g) (stepG E r g') := by
  cases hg with
  | done => exact .pure trivial
  | @start ctx ctx' c q hctx hq =>
    have hme := hctx.method
    have key : Mirror id (SameText (RS Q)) (do let g ← startG E r ctx c; r.G g)
        (do let g ← startG E r ctx' (c.scale q); r.G g) :=
      (startG_RS hQ hr hctx hq).bind fun g g' hg => hr.G g g' hg
    rcases c with ⟨t, m⟩ | _ | _ | ⟨_ | _, _, _⟩ | _ | ⟨_, _ | _⟩ | _
    case lit =>
      simp only [stepG, Cmd.scale, hme]
      cases h : ctx.method with
      | comb => exact .pure ⟨rfl, .done⟩
      | random => exact .pure ⟨rfl, .rep⟩
      | cyc => exact .pure ⟨rfl, .rep⟩
    all_goals exact key
  | rep => exact .pure ⟨rfl, .rep⟩
  | @randVar ctx ctx' opts lo hi sep q hctx hq =>
    have e1 : (Cmd.scaleO q opts).length = opts.length := by simp [scaleO_map]
    have e2 : (Cmd.scaleO q opts).map (·.1) = (opts.map (·.1)).map (Cmd.scale q) := by
      simp [scaleO_map, List.map_map, Function.comp_def]
    have e3 : (Cmd.scaleO q opts).map (·.2) = (opts.map (·.2)).map (q * ·) := by
      simp [scaleO_map, List.map_map, Function.comp_def]
    simp only [stepG, e1, e2, e3, choose_scale E.rng (hQ.exact q hq)]
    refine (randint_mirror _ _ _).bind fun k k' hk => ?_
    subst hk
    refine (choose_map E.rng (scale_injective (hQ.exact q hq).positive) _ _ _).bind fun sel sel' hsel => ?_
    subst hsel
    refine (Mirror.lift (mkGens_RS hQ hctx hq)).bind fun gs gs' hgs => ?_
    cases hgs with
    | nil => exact .pure ⟨rfl, .randVar hctx hq⟩
    | cons h h' =>
      exact (rotate_RS hr (.cons h h')).bind fun x y hx => .pure ⟨by simp only [hx.1], .randVar hctx hq⟩
  | @randWild ctx ctx' items buf hctx =>
    simp only [stepG]
    refine (weightedNext_mirror E.rng items buf).bind fun x y hx => ?_
    subst hx
    refine (Mirror.lift (sampleText_RS hQ hctx)).bind fun g g' hg => (hr.G g g' hg).bind fun y y' hy => ?_
    rcases hy.cases with ⟨rfl, rfl⟩ | ⟨v, x, y, rfl, rfl, h⟩
    · exact hr.G _ _ (.randWild hctx)
    · exact .pure ⟨rfl, .randWild hctx⟩
  | zipWrap h1 h2 =>
    refine (hr.G _ _ h1).bind fun x x' hx => ?_
    rcases hx.cases with ⟨rfl, rfl⟩ | ⟨v, a, b, rfl, rfl, h⟩
    · exact .pure trivial
    · refine (hr.G _ _ h2).bind fun y y' hy => ?_
      rcases hy.cases with ⟨rfl, rfl⟩ | ⟨v', a', b', rfl, rfl, h'⟩
      · exact .pure trivial
      · exact .pure ⟨rfl, .zipWrap h h'⟩
  | seqNF h => exact (rotate_RS hr h).bind fun x y hx => .pure ⟨by simp only [hx.1], .seqNF hx.2⟩
  | cycVar h =>
    cases h with
    | nil => exact .diverge
    | cons h h' =>
      refine (hr.A _ _ h).bind fun x y hx => ?_
      rcases hx.cases with ⟨rfl, rfl⟩ | ⟨v, a, b, rfl, rfl, h1⟩
      · exact .raise rfl
      · exact .pure ⟨rfl, .cycVar (h'.append (.cons h1 .nil))⟩
  | cycWild h =>
    cases h with
    | nil => exact .pure trivial
    | cons h h' =>
      exact (next!_RS hr h).bind fun x y hx => .pure ⟨hx.1, .cycWild (h'.append (.cons hx.2 .nil))⟩
  | combSeq hq h1 h2 =>
    refine (hr.S _ _ _ _ _ hq h1 h2).bind fun x y hx => ?_
    obtain ⟨coll, x⟩ := x
    obtain ⟨coll', y⟩ := y
    rcases hx.2.cases with ⟨h, h'⟩ | ⟨v, a, b, h, h', h3⟩
    · dsimp only at h h'; subst h h'; exact .pure trivial
    · dsimp only at h h'; subst h h'; exact .pure ⟨rfl, .combSeq hq hx.1 h3⟩
  | @combVar ctx ctx' sep seen pend q hctx hq =>
    cases pend with
    | nil => exact .pure trivial
    | cons p pend => exact hr.G _ _ (.combVarIn hctx hq (.start hctx hq))
  | combVarIn hctx hq hfr =>
    refine (hr.P _ _ hfr).bind fun x y hx => ?_
    rcases hx.cases with ⟨rfl, rfl⟩ | ⟨v, a, b, rfl, rfl, h⟩
    · exact hr.G _ _ (.combVar hctx hq)
    · dsimp only
      split
      · exact .pure ⟨rfl, .combVarIn hctx hq h⟩
      · exact hr.G _ _ (.combVarIn hctx hq h)
  | @combWild ctx ctx' vals cur cur' hctx hcur =>
    refine (hr.G _ _ hcur).bind fun x y hx => ?_
    rcases hx.cases with ⟨rfl, rfl⟩ | ⟨v, a, b, rfl, rfl, h⟩
    · cases vals with
      | nil => exact .pure trivial
      | cons v vals =>
        exact (Mirror.lift (sampleText_RS hQ hctx)).bind fun g g' hg => hr.G _ _ (.combWild hctx hg)
    · exact .pure ⟨rfl, .combWild hctx h⟩
  | combWrap hctx hq hw =>
    refine (hr.G _ _ hw).bind fun x y hx => ?_
    rcases hx.cases with ⟨rfl, rfl⟩ | ⟨v, a, b, rfl, rfl, h⟩
    · exact .pure trivial
    · exact (Mirror.lift (sampleGen_RS hQ (p := .inr _) hctx hq)).bind
        fun g g' hg => hr.G _ _ (.combWrapIn hctx hq h hg)
  | combWrapIn hctx hq hw hig =>
    refine (hr.G _ _ hig).bind fun x y hx => ?_
    rcases hx.cases with ⟨rfl, rfl⟩ | ⟨v, a, b, rfl, rfl, h⟩
    · exact hr.G _ _ (.combWrap hctx hq hw)
    · exact .pure ⟨rfl, .combWrapIn hctx hq hw h⟩
  | squash h =>
    refine (hr.G _ _ h).bind fun x y hx => ?_
    rcases hx.cases with ⟨rfl, rfl⟩ | ⟨v, a, b, rfl, rfl, h⟩
    · exact .pure trivial
    · exact .pure ⟨rfl, .squash h⟩

theorem stepA_RS {a a' : Arr} (ha : RSA Q a a') : Mirror id (SameText (RSA Q)) (stepA E r a) (stepA E r a') := by
  cases ha with
  | done => exact .pure trivial
  | nil => exact .pure ⟨rfl, .nil⟩
  | @start ctx ctx' combo q hctx hq =>
    cases combo with
    | nil => exact .pure ⟨rfl, .nil⟩
    | cons c cs =>
      exact (Mirror.lift (mkGen_RS hQ hctx hq)).bind fun g g' hg => hr.A _ _ (.node hg (.start hctx hq))
  | node h1 h2 =>
    refine (hr.A _ _ h2).bind fun x y hx => ?_
    rcases hx.cases with ⟨rfl, rfl⟩ | ⟨v, a, b, rfl, rfl, h⟩
    · exact .pure trivial
    · refine (hr.G _ _ h1).bind fun x y hx => ?_
      rcases hx.cases with ⟨rfl, rfl⟩ | ⟨v', a', b', rfl, rfl, h'⟩
      · exact .pure ⟨rfl, .done⟩
      · exact .pure ⟨rfl, .node h' h⟩

omit hQ hr in
theorem effective_scale {ctx ctx' : Ctx} (h : CtxS Q ctx ctx') (c : Cmd) (q : Rat) :
    ctx'.effective (c.scale q) = ctx.effective c := by
  unfold Ctx.effective
  rw [scale_method, h.method]

theorem stepS_RS {coll coll' : Coll} {fr fr' : SFrame} {q : Rat} (hq : Q q) (hcoll : RSC Q q coll coll') (hfr : RSS Q q fr fr') :
    Mirror id (fun x y => RSC Q q x.1 y.1 ∧ SameText (RSS Q q) x.2 y.2) (stepS E r coll fr) (stepS E r coll' fr') := by
  cases hfr with
  | done => exact .pure ⟨hcoll, trivial⟩
  | @start ctx ctx' cs _ hctx =>
    cases cs with
    | nil => exact .pure ⟨hcoll, rfl, .done⟩
    | cons c cs =>
      simp only [stepS, List.map_cons, effective_scale hctx]
      split
      · exact hr.S _ _ _ _ _ hq hcoll (.nf (.start hctx))
      · exact (Mirror.lift (mkGen_RS hQ hctx hq)).bind fun g g' hg =>
          hr.S _ _ _ _ _ hq hcoll (.fin hctx hg)
  | nf h =>
    refine (hr.S _ _ _ _ _ hq hcoll h).bind fun x y hx => ?_
    obtain ⟨coll1, x⟩ := x
    obtain ⟨coll2, y⟩ := y
    rcases hx.2.cases with ⟨h1, h2⟩ | ⟨v, a, b, h1, h2, h3⟩
    · dsimp only at h1 h2; subst h1 h2; exact .pure ⟨hx.1, trivial⟩
    · dsimp only at h1 h2
      subst h1 h2
      refine (getValue_RS hQ hr _ hq hx.1).bind fun x y hxy => ?_
      obtain ⟨o, coll3⟩ := x
      obtain ⟨o', coll4⟩ := y
      obtain ⟨h4, h5⟩ := hxy
      dsimp only at h4 h5
      subst h4
      cases o' with
      | none => exact .pure ⟨h5, rfl, .nf h3⟩
      | some v => exact .pure ⟨h5, rfl, .nf h3⟩
  | fin hctx hg =>
    refine (hr.G _ _ hg).bind fun x y hx => ?_
    rcases hx.cases with ⟨rfl, rfl⟩ | ⟨v, a, b, rfl, rfl, h⟩
    · exact .pure ⟨hcoll, trivial⟩
    · exact hr.S _ _ _ _ _ hq hcoll (.finIn hctx h (.start hctx))
  | finIn hctx hg hcur =>
    refine (hr.S _ _ _ _ _ hq hcoll hcur).bind fun x y hx => ?_
    obtain ⟨coll1, x⟩ := x
    obtain ⟨coll2, y⟩ := y
    rcases hx.2.cases with ⟨h1, h2⟩ | ⟨v, a, b, h1, h2, h3⟩
    · dsimp only at h1 h2; subst h1 h2; exact hr.S _ _ _ _ _ hq hx.1 (.fin hctx hg)
    · dsimp only at h1 h2; subst h1 h2; exact .pure ⟨hx.1, rfl, .finIn hctx hg h3⟩

theorem stepP_RS {fr fr' : PFrame} (hfr : RSP Q fr fr') :
    Mirror id (SameText (RSP Q)) (stepP E r fr) (stepP E r fr') := by
  cases hfr with
  | done => exact .pure trivial
  | @start ctx ctx' cs q hctx hq =>
    cases cs with
    | nil => exact .pure ⟨rfl, .done⟩
    | cons c cs =>
      simp only [stepP, List.map_cons, effective_scale hctx]
      refine (Mirror.lift (mkGen_RS hQ hctx hq)).bind fun g g' hg => ?_
      split
      · exact hr.P _ _ (.nf hg (.start hctx hq))
      · exact hr.P _ _ (.fin hctx hq hg)
  | nf hg h =>
    refine (hr.P _ _ h).bind fun x y hx => ?_
    rcases hx.cases with ⟨rfl, rfl⟩ | ⟨v, a, b, rfl, rfl, h1⟩
    · exact .pure trivial
    · exact (next!_RS hr hg).bind fun x y hx => .pure ⟨by simp only [hx.1], .nf hx.2 h1⟩
  | fin hctx hq hg =>
    refine (hr.G _ _ hg).bind fun x y hx => ?_
    rcases hx.cases with ⟨rfl, rfl⟩ | ⟨v, a, b, rfl, rfl, h⟩
    · exact .pure trivial
    · exact hr.P _ _ (.finIn hctx hq h (.start hctx hq))
  | finIn hctx hq hg hcur =>
    refine (hr.P _ _ hcur).bind fun x y hx => ?_
    rcases hx.cases with ⟨rfl, rfl⟩ | ⟨v, a, b, rfl, rfl, h⟩
    · exact hr.P _ _ (.fin hctx hq hg)
    · exact .pure ⟨rfl, .finIn hctx hq hg h⟩

end

theorem recs_RS (hQ : Factors E Q) (n : Nat) : RecsRS Q (recs E n) := by
  induction n with
  | zero => exact ⟨fun _ _ _ => .diverge, fun _ _ _ => .diverge, fun _ _ _ _ _ _ _ _ => .diverge, fun _ _ _ => .diverge⟩
  | succ n ih =>
    exact ⟨fun g g' hg => stepG_RS hQ ih hg, fun a a' ha => stepA_RS hQ ih ha,
      fun q coll coll' fr fr' hq h1 h2 => stepS_RS hQ ih hq h1 h2, fun fr fr' h => stepP_RS hQ ih h⟩

theorem collect_RS (hQ : Factors E Q) (n k : Nat) {g g' : Gen}
    (hg : RS Q g g') (w : W) :
    (collect E n k g' w).1 = (collect E n k g w).1 ∧
      SameEnding (collect E n k g w).2 (collect E n k g' w).2 := by
  induction k generalizing g g' w with
  | zero => exact ⟨rfl, rfl⟩
  | succ k ih =>
    have h1 := (recs_RS hQ n).G g g' hg w
    simp only [collect, nextG]
    cases hx : (recs E n).G g w with
    | ok a w1 =>
      cases hy : (recs E n).G g' w with
      | ok b w2 =>
        rw [hx, hy] at h1
        obtain ⟨h2, rfl⟩ := h1
        rcases h2.cases with ⟨rfl, rfl⟩ | ⟨v, a, b, rfl, rfl, h⟩
        · exact ⟨rfl, rfl⟩
        · have := ih h w1
          exact ⟨by dsimp only; rw [this.1], this.2⟩
      | err e w2 => rw [hx, hy] at h1; exact h1.elim
      | fuel => rw [hx, hy] at h1; exact h1.elim
    | err e w1 =>
      cases hy : (recs E n).G g' w with
      | ok b w2 => rw [hx, hy] at h1; exact h1.elim
      | err e w2 => rw [hx, hy] at h1; exact ⟨rfl, by rw [h1.1, err_rename_id], h1.2⟩
      | fuel => rw [hx, hy] at h1; exact h1.elim
    | fuel =>
      cases hy : (recs E n).G g' w with
      | ok b w2 => rw [hx, hy] at h1; exact h1.elim
      | err e w2 => rw [hx, hy] at h1; exact h1.elim
      | fuel => exact ⟨rfl, trivial⟩

end
end Verif
