import Verif.Spec.Relabel
import Verif.Proofs.Renaming
import Verif.Proofs.Lone
/-! A template and the template with renamed wildcards run in lockstep. -/

namespace Verif
open Spec

/-! ### Renaming commands -/

section
variable {ν : Str → Str}

theorem relabelL_map (l : List Cmd) : Cmd.relabelL ν l = l.map (Cmd.relabel ν) := by
  induction l with
  | nil => rfl
  | cons c l ih => simp only [Cmd.relabelL, List.map_cons, ih]

theorem relabelO_map (l : List (Cmd × Rat)) : Cmd.relabelO ν l = l.map fun p => (p.1.relabel ν, p.2) := by
  induction l with
  | nil => rfl
  | cons c l ih => simp only [Cmd.relabelO, List.map_cons, ih]

theorem relabelV_map (l : List (Str × Cmd)) : Cmd.relabelV ν l = l.map fun p => (p.1, p.2.relabel ν) := by
  induction l with
  | nil => rfl
  | cons c l ih => simp only [Cmd.relabelV, List.map_cons, ih]

mutual
theorem relabel_back {σ : Str → Str} (h : ∀ n, σ (ν n) = n) : ∀ c : Cmd, (c.relabel ν).relabel σ = c
  | .lit .. => rfl
  | .seq toks _ _ => by simp only [Cmd.relabel, relabelL_back h toks]
  | .variant opts _ _ _ _ => by simp only [Cmd.relabel, relabelO_back h opts]
  | .wild (.inl _) _ v => by simp only [Cmd.relabel, relabelV_back h v, h]
  | .wild (.inr p) _ v => by simp only [Cmd.relabel, relabelV_back h v, relabel_back h p]
  | .assign _ v _ _ => by simp only [Cmd.relabel, relabel_back h v]
  | .access _ none => by simp only [Cmd.relabel]
  | .access _ (some d) => by simp only [Cmd.relabel, relabel_back h d]
  | .wrap w i _ => by simp only [Cmd.relabel, relabel_back h w, relabel_back h i]
theorem relabelL_back {σ : Str → Str} (h : ∀ n, σ (ν n) = n) : ∀ l : List Cmd, Cmd.relabelL σ (Cmd.relabelL ν l) = l
  | [] => rfl
  | c :: cs => by simp only [Cmd.relabelL, relabel_back h c, relabelL_back h cs]
theorem relabelO_back {σ : Str → Str} (h : ∀ n, σ (ν n) = n) :
    ∀ l : List (Cmd × Rat), Cmd.relabelO σ (Cmd.relabelO ν l) = l
  | [] => rfl
  | (c, _) :: cs => by simp only [Cmd.relabelO, relabel_back h c, relabelO_back h cs]
theorem relabelV_back {σ : Str → Str} (h : ∀ n, σ (ν n) = n) :
    ∀ l : List (Str × Cmd), Cmd.relabelV σ (Cmd.relabelV ν l) = l
  | [] => rfl
  | (_, c) :: cs => by simp only [Cmd.relabelV, relabel_back h c, relabelV_back h cs]
end

theorem relabel_injective (h : Function.Injective ν) : Function.Injective (Cmd.relabel ν) := by
  obtain ⟨σ, hσ⟩ := h.hasLeftInverse
  intro a b hab
  rw [← relabel_back hσ a, hab, relabel_back hσ b]

theorem relabel_method (c : Cmd) : (c.relabel ν).method = c.method := by
  rcases c with _ | _ | _ | ⟨_ | _, _, _⟩ | _ | ⟨_, _ | _⟩ | _ <;> rfl

theorem relabel_truthy (c : Cmd) : (c.relabel ν).truthy = c.truthy := by
  rcases c with _ | toks | opts | ⟨_ | _, _, _⟩ | _ | ⟨_, _ | _⟩ | _ <;> try rfl
  · simp [Cmd.relabel, Cmd.truthy, relabelL_map]
  · simp [Cmd.relabel, Cmd.truthy, relabelO_map]

theorem relabelV_append (a b : List (Str × Cmd)) : Cmd.relabelV ν (a ++ b) = Cmd.relabelV ν a ++ Cmd.relabelV ν b := by
  simp [relabelV_map]

theorem lookup_relabel (vars : List (Str × Cmd)) (n : Str) :
    (Cmd.relabelV ν vars).lookup n = (vars.lookup n).map (Cmd.relabel ν) := by
  induction vars with
  | nil => rfl
  | cons p vars ih =>
    obtain ⟨x, c⟩ := p
    simp only [Cmd.relabelV, List.lookup_cons]
    by_cases h : n = x
    · subst h; simp
    · simp only [beq_eq_false_iff_ne.2 h]
      exact ih

/-- The end of a chain of variables. -/
def relabelOutcome (ν : Str → Str) : Outcome → Outcome
  | .target b c => .target b (c.relabel ν)
  | .undefined n => .undefined n
  | .recursion n => .recursion n

variable {u : Option Cmd}

theorem resolves_relabel {vars : List (Str × Cmd)} {n : Str} {d : Option Cmd} {c : Cmd} (h : Resolves u vars n d c) :
    Resolves (u.map (Cmd.relabel ν)) (Cmd.relabelV ν vars) n (d.map (Cmd.relabel ν)) (c.relabel ν) := by
  cases h with
  | var h h' => exact .var (by rw [lookup_relabel, h]; rfl) (by rw [relabel_truthy]; exact h')
  | default h h' => exact .default (by rw [lookup_relabel, h]; rfl) (by rw [relabel_truthy]; exact h')
  | unknownEmpty h h' e =>
    exact .unknownEmpty (by rw [lookup_relabel, h]; rfl) (by rw [relabel_truthy]; exact h') (by rw [e]; rfl)
  | unknownEmptyDefault h h' e =>
    exact .unknownEmptyDefault (by rw [lookup_relabel, h]; rfl) (by rw [relabel_truthy]; exact h') (by rw [e]; rfl)
  | unknown h e => exact .unknown (by rw [lookup_relabel, h]; rfl) (by rw [e]; rfl)

theorem access_relabel (n : Str) (d : Option Cmd) :
    Cmd.relabel ν (.access n d) = .access n (d.map (Cmd.relabel ν)) := by
  cases d <;> rfl

theorem not_access_relabel {c : Cmd} (h : ∀ n d, c ≠ .access n d) (n : Str) (d : Option Cmd) :
    c.relabel ν ≠ .access n d := by
  rcases c with _ | _ | _ | ⟨_ | _, _, _⟩ | _ | ⟨_, _ | _⟩ | _ <;>
    first | exact absurd rfl (h _ _) | (intro e; cases e)
end

/-! ### Related states -/

section
variable {W : Type} {E E' : Env W} {ν τ : Str → Str}

theorem moved_part {c c' : Cmd} (h : AllMoved E E' ν τ c) (hp : Part E c c') : AllMoved E E' ν τ c' :=
  fun path m v hx => h path m v (Relation.ReflTransGen.head hp hx)

theorem moved_lit {t : Str} {m : Option Method} : AllMoved E E' ν τ (.lit t m) := by
  intro path m v hx
  rcases Relation.ReflTransGen.cases_head hx with h | ⟨y, h, -⟩
  · cases h
  · cases h

theorem moved_variant {opts : List (Cmd × Rat)} {lo hi : Int} {sep : Str} {m : Option Method}
    (h : ∀ p ∈ opts, AllMoved E E' ν τ p.1) : AllMoved E E' ν τ (.variant opts lo hi sep m) := by
  intro path m v hx
  rcases Relation.ReflTransGen.cases_head hx with h' | ⟨y, h', h''⟩
  · cases h'
  · cases h' with
    | option hp => exact h _ hp path m v h''

/-- The text is read as before, with renamed wildcards. -/
def TextMoved (E E' : Env W) (ν τ : Str → Str) (s s' : Str) : Prop :=
  ReadsTo E E' ν s s' ∧ ∀ c, E.parse s = .ok c → AllMoved E E' ν τ c

/-- The variables of the context. -/
def VarsMoved (E E' : Env W) (ν τ : Str → Str) (ctx : Ctx) : Prop := ∀ b ∈ ctx.vars, AllMoved E E' ν τ b.2

/-- Paths of wildcards. -/
def Path.relabel (ν : Str → Str) : Prompt → Prompt
  | .inl s => .inl (ν s)
  | .inr c => .inr (c.relabel ν)

/-- A prompt and the prompt with renamed wildcards. -/
inductive PromptMoved (E E' : Env W) (ν τ : Str → Str) : Prompt → Prompt → Prop
  | text {s s'} : TextMoved E E' ν τ s s' → PromptMoved E E' ν τ (.inl s) (.inl s')
  | cmd {c} : AllMoved E E' ν τ c → PromptMoved E E' ν τ (.inr c) (.inr (c.relabel ν))

theorem wild_relabel (path : Prompt) (m : Option Method) (v : List (Str × Cmd)) :
    Cmd.relabel ν (.wild path m v) = .wild (Path.relabel ν path) m (Cmd.relabelV ν v) := by
  cases path <;> rfl

mutual
inductive RW (E E' : Env W) (ν τ : Str → Str) : Gen → Gen → Prop
  | done : RW E E' ν τ .done .done
  | start {ctx c} : VarsMoved E E' ν τ ctx → AllMoved E E' ν τ c → RW E E' ν τ (.start ctx c) (.start (ctx.relabel ν) (c.relabel ν))
  | rep {s} : RW E E' ν τ (.rep s) (.rep s)
  | seqNF {sep gens gens'} : RWL E E' ν τ gens gens' → RW E E' ν τ (.seqNF sep gens) (.seqNF sep gens')
  | randVar {ctx opts lo hi sep} : VarsMoved E E' ν τ ctx → (∀ p ∈ opts, AllMoved E E' ν τ p.1) →
      RW E E' ν τ (.randVar ctx opts lo hi sep) (.randVar (ctx.relabel ν) (Cmd.relabelO ν opts) lo hi sep)
  | randWild {ctx items buf} : VarsMoved E E' ν τ ctx → (∀ i ∈ items, TextMoved E E' ν τ i.content (τ i.content)) →
      (∀ x ∈ buf, x ∈ items.map Item.content) →
      RW E E' ν τ (.randWild ctx items buf) (.randWild (ctx.relabel ν) (items.map (retext τ)) (buf.map τ))
  | zipWrap {wg ig wg' ig'} : RW E E' ν τ wg wg' → RW E E' ν τ ig ig' → RW E E' ν τ (.zipWrap wg ig) (.zipWrap wg' ig')
  | cycVar {sep q q'} : RWAL E E' ν τ q q' → RW E E' ν τ (.cycVar sep q) (.cycVar sep q')
  | cycWild {q q'} : RWL E E' ν τ q q' → RW E E' ν τ (.cycWild q) (.cycWild q')
  | combSeq {sep coll fr coll' fr'} : RWC E E' ν τ coll coll' → RWS E E' ν τ fr fr' →
      RW E E' ν τ (.combSeq sep coll fr) (.combSeq sep coll' fr')
  | combVar {ctx sep seen pend} : VarsMoved E E' ν τ ctx → (∀ p ∈ pend, ∀ c ∈ p.2, AllMoved E E' ν τ c) →
      RW E E' ν τ (.combVar ctx sep seen pend)
        (.combVar (ctx.relabel ν) sep seen (pend.map fun p => (p.1, p.2.map (Cmd.relabel ν))))
  | combVarIn {ctx sep seen pend b fr fr'} : VarsMoved E E' ν τ ctx → (∀ p ∈ pend, ∀ c ∈ p.2, AllMoved E E' ν τ c) →
      RWP E E' ν τ fr fr' → RW E E' ν τ (.combVarIn ctx sep seen pend b fr)
        (.combVarIn (ctx.relabel ν) sep seen (pend.map fun p => (p.1, p.2.map (Cmd.relabel ν))) b fr')
  | combWild {ctx vals cur cur'} : VarsMoved E E' ν τ ctx → (∀ v ∈ vals, TextMoved E E' ν τ v (τ v)) → RW E E' ν τ cur cur' →
      RW E E' ν τ (.combWild ctx vals cur) (.combWild (ctx.relabel ν) (vals.map τ) cur')
  | combWrap {ctx inner wg wg'} : VarsMoved E E' ν τ ctx → AllMoved E E' ν τ inner → RW E E' ν τ wg wg' →
      RW E E' ν τ (.combWrap ctx inner wg) (.combWrap (ctx.relabel ν) (inner.relabel ν) wg')
  | combWrapIn {ctx inner wg wg' w ig ig'} : VarsMoved E E' ν τ ctx → AllMoved E E' ν τ inner → RW E E' ν τ wg wg' → RW E E' ν τ ig ig' →
      RW E E' ν τ (.combWrapIn ctx inner wg w ig) (.combWrapIn (ctx.relabel ν) (inner.relabel ν) wg' w ig')
  | squash {g g'} : RW E E' ν τ g g' → RW E E' ν τ (.squash g) (.squash g')
inductive RWL (E E' : Env W) (ν τ : Str → Str) : List Gen → List Gen → Prop
  | nil : RWL E E' ν τ [] []
  | cons {g gs g' gs'} : RW E E' ν τ g g' → RWL E E' ν τ gs gs' → RWL E E' ν τ (g :: gs) (g' :: gs')
inductive RWC (E E' : Env W) (ν τ : Str → Str) : Coll → Coll → Prop
  | nil : RWC E E' ν τ [] []
  | cons {c g g' v cs cs'} : RW E E' ν τ g g' → RWC E E' ν τ cs cs' → RWC E E' ν τ ((c, g, v) :: cs) ((c.relabel ν, g', v) :: cs')
inductive RWA (E E' : Env W) (ν τ : Str → Str) : Arr → Arr → Prop
  | done : RWA E E' ν τ .done .done
  | start {ctx combo} : VarsMoved E E' ν τ ctx → (∀ c ∈ combo, AllMoved E E' ν τ c) →
      RWA E E' ν τ (.start ctx combo) (.start (ctx.relabel ν) (combo.map (Cmd.relabel ν)))
  | nil : RWA E E' ν τ .nil .nil
  | node {g g' rest rest'} : RW E E' ν τ g g' → RWA E E' ν τ rest rest' → RWA E E' ν τ (.node g rest) (.node g' rest')
inductive RWAL (E E' : Env W) (ν τ : Str → Str) : List Arr → List Arr → Prop
  | nil : RWAL E E' ν τ [] []
  | cons {g g' gs gs'} : RWA E E' ν τ g g' → RWAL E E' ν τ gs gs' → RWAL E E' ν τ (g :: gs) (g' :: gs')
inductive RWS (E E' : Env W) (ν τ : Str → Str) : SFrame → SFrame → Prop
  | done : RWS E E' ν τ .done .done
  | start {ctx cs} : VarsMoved E E' ν τ ctx → (∀ c ∈ cs, AllMoved E E' ν τ c) →
      RWS E E' ν τ (.start ctx cs) (.start (ctx.relabel ν) (cs.map (Cmd.relabel ν)))
  | nf {c rest rest'} : RWS E E' ν τ rest rest' → RWS E E' ν τ (.nf c rest) (.nf (c.relabel ν) rest')
  | fin {ctx rest g g'} : VarsMoved E E' ν τ ctx → (∀ c ∈ rest, AllMoved E E' ν τ c) → RW E E' ν τ g g' →
      RWS E E' ν τ (.fin ctx rest g) (.fin (ctx.relabel ν) (rest.map (Cmd.relabel ν)) g')
  | finIn {ctx rest g g' v cur cur'} : VarsMoved E E' ν τ ctx → (∀ c ∈ rest, AllMoved E E' ν τ c) → RW E E' ν τ g g' →
      RWS E E' ν τ cur cur' → RWS E E' ν τ (.finIn ctx rest g v cur) (.finIn (ctx.relabel ν) (rest.map (Cmd.relabel ν)) g' v cur')
inductive RWP (E E' : Env W) (ν τ : Str → Str) : PFrame → PFrame → Prop
  | done : RWP E E' ν τ .done .done
  | start {ctx cs} : VarsMoved E E' ν τ ctx → (∀ c ∈ cs, AllMoved E E' ν τ c) →
      RWP E E' ν τ (.start ctx cs) (.start (ctx.relabel ν) (cs.map (Cmd.relabel ν)))
  | nf {g g' rest rest'} : RW E E' ν τ g g' → RWP E E' ν τ rest rest' → RWP E E' ν τ (.nf g rest) (.nf g' rest')
  | fin {ctx rest g g'} : VarsMoved E E' ν τ ctx → (∀ c ∈ rest, AllMoved E E' ν τ c) → RW E E' ν τ g g' →
      RWP E E' ν τ (.fin ctx rest g) (.fin (ctx.relabel ν) (rest.map (Cmd.relabel ν)) g')
  | finIn {ctx rest g g' v cur cur'} : VarsMoved E E' ν τ ctx → (∀ c ∈ rest, AllMoved E E' ν τ c) → RW E E' ν τ g g' →
      RWP E E' ν τ cur cur' → RWP E E' ν τ (.finIn ctx rest g v cur) (.finIn (ctx.relabel ν) (rest.map (Cmd.relabel ν)) g' v cur')
end

theorem RWL.append {xs ys xs' ys' : List Gen} (hx : RWL E E' ν τ xs xs') (hy : RWL E E' ν τ ys ys') :
    RWL E E' ν τ (xs ++ ys) (xs' ++ ys') := by
  match hx with
  | .nil => exact hy
  | .cons h h' => exact .cons h (RWL.append h' hy)

theorem RWAL.append {xs ys xs' ys' : List Arr} (hx : RWAL E E' ν τ xs xs') (hy : RWAL E E' ν τ ys ys') :
    RWAL E E' ν τ (xs ++ ys) (xs' ++ ys') := by
  match hx with
  | .nil => exact hy
  | .cons h h' => exact .cons h (RWAL.append h' hy)

theorem err_relabel (e : Err) : e.rename id = e := by cases e <;> rfl

section
variable (hS : Relabels E E' ν τ)
include hS

theorem chain_relabel {vars : List (Str × Cmd)} {being : List Str} {c : Cmd} {o : Outcome}
    (h : Chain E.unknown vars being c o) :
    Chain E'.unknown (Cmd.relabelV ν vars) being (c.relabel ν) (relabelOutcome ν o) := by
  rw [hS.unknown]
  induction h with
  | target h => exact .target (not_access_relabel h)
  | undefined h =>
    rw [access_relabel]
    refine .undefined ⟨by rw [h.1]; rfl, ?_⟩
    have h2 := h.2
    rw [lookup_relabel]
    cases hl : List.lookup _ vars with
    | some c => rw [hl] at h2; simp only [Option.map_some, relabel_truthy]; exact h2
    | none =>
      rw [hl] at h2
      intro d' hd'
      obtain ⟨x, hx, rfl⟩ := Option.map_eq_some_iff.1 hd'
      rw [relabel_truthy]; exact h2 x hx
  | loop hr hm =>
    rw [access_relabel]
    exact .loop (resolves_relabel hr) hm
  | step hr hm _ ih =>
    rw [access_relabel]
    exact .step (resolves_relabel hr) hm ih

theorem chain_moved {vars : List (Str × Cmd)} {being b : List Str} {c c' : Cmd} {o : Outcome}
    (hv : ∀ b ∈ vars, AllMoved E E' ν τ b.2) (hc : AllMoved E E' ν τ c)
    (h : Chain E.unknown vars being c o) (ho : o = .target b c') : AllMoved E E' ν τ c' := by
  induction h with
  | target _ => cases ho; exact hc
  | undefined _ => cases ho
  | loop _ _ => cases ho
  | step hr _ _ ih =>
    refine ih ?_ ho
    cases hr with
    | var h _ => exact hv _ (mem_of_lookup h)
    | default _ _ => exact moved_part hc .default
    | unknownEmpty _ _ h => exact hS.unknownMoved _ h
    | unknownEmptyDefault _ _ h => exact hS.unknownMoved _ h
    | unknown _ h => exact hS.unknownMoved _ h

theorem mkGen_RW {ctx : Ctx} {c : Cmd} (hctx : VarsMoved E E' ν τ ctx) (hc : AllMoved E E' ν τ c) :
    LiftMirror id (RW E E' ν τ) (mkGen E.unknown ctx c) (mkGen E'.unknown (ctx.relabel ν) (c.relabel ν)) := by
  obtain ⟨o, ho⟩ := chain_total E.unknown ctx.vars ctx.being c
  rw [mkGen_outcome ho, mkGen_outcome (ctx := ctx.relabel ν) (chain_relabel hS ho)]
  cases o with
  | undefined n => exact rfl
  | recursion n => exact rfl
  | target b c' =>
    have hk := chain_moved hS hctx hc ho rfl
    have key : RW E E' ν τ (.start ⟨effMethod ctx.method c'.method, ctx.vars, b⟩ c')
        (.start ⟨effMethod ctx.method (c'.relabel ν).method, Cmd.relabelV ν ctx.vars, b⟩ (c'.relabel ν)) := by
      rw [relabel_method]
      exact .start (ctx := ⟨effMethod ctx.method c'.method, ctx.vars, b⟩) hctx hk
    rcases c' with _ | _ | _ | ⟨_ | _, _, _⟩ | _ | ⟨_, _ | _⟩ | ⟨_, _, m⟩
    case wrap =>
      simp only [outcomeGen, relabelOutcome, Cmd.relabel, Cmd.method] at key ⊢
      show LiftMirror id (RW E E' ν τ) (if effMethod ctx.method m = .cyc then _ else _)
        (if effMethod ctx.method m = .cyc then _ else _)
      split
      · exact rfl
      · exact key
    all_goals first | exact key | exact rfl

theorem mkGens_RW {ctx : Ctx} {cs : List Cmd} (hctx : VarsMoved E E' ν τ ctx) (hc : ∀ c ∈ cs, AllMoved E E' ν τ c) :
    LiftMirror id (RWL E E' ν τ) (mkGens E.unknown ctx cs) (mkGens E'.unknown (ctx.relabel ν) (cs.map (Cmd.relabel ν))) := by
  induction cs with
  | nil => exact .nil
  | cons c cs ih =>
    simp only [mkGens, List.map_cons]
    rcases (mkGen_RW hS hctx (hc c (by simp))).cases with ⟨e, h1, h2⟩ | ⟨g, g', h1, h2, h3⟩
    · rw [h1, h2]; exact rfl
    · rw [h1, h2]
      rcases (ih fun c h => hc c (by simp [h])).cases with ⟨e, h4, h5⟩ | ⟨gs, gs', h4, h5, h6⟩
      · simp only [h4, h5]; exact rfl
      · simp only [h4, h5]; exact .cons h3 h6

theorem sampleGen_RW {ctx : Ctx} {p p' : Prompt} (hctx : VarsMoved E E' ν τ ctx) (hpath : PromptMoved E E' ν τ p p') :
    LiftMirror id (RW E E' ν τ) (sampleGen E ctx p) (sampleGen E' (ctx.relabel ν) p') := by
  have key : ∀ c, AllMoved E E' ν τ c → LiftMirror id (RW E E' ν τ) (match mkGen E.unknown ctx c with
        | .error e => .error e
        | .ok g => .ok (if E.ignoreWs then .squash g else g) : Except Err Gen)
      (match mkGen E'.unknown (ctx.relabel ν) (c.relabel ν) with
        | .error e => .error e
        | .ok g => .ok (if E'.ignoreWs then .squash g else g) : Except Err Gen) := by
    intro c hc
    rw [hS.whitespace]
    rcases (mkGen_RW hS hctx hc).cases with ⟨e, h1, h2⟩ | ⟨g, g', h1, h2, h3⟩
    · rw [h1, h2]; exact rfl
    · rw [h1, h2]
      cases E.ignoreWs
      · exact h3
      · exact .squash h3
  cases hpath with
  | text h =>
    rename_i s s'
    simp only [sampleGen]
    by_cases hs : s = []
    · rw [h.1.empty.2 hs, hs]; exact .done
    · have hs' : s' ≠ [] := fun e => hs (h.1.empty.1 e)
      rw [if_neg (by simp [hs]), if_neg (by simp [hs'])]
      cases h1 : E.parse s with
      | error e => rw [h.1.error e h1]; exact (err_relabel e).symm
      | ok c => rw [h.1.command c h1]; exact key c (h.2 c h1)
  | cmd h =>
    rename_i c
    simp only [sampleGen, relabel_truthy]
    cases c.truthy
    · exact .done
    · exact key c h

theorem sampleGens_RW {ctx : Ctx} {ps : List Str} (hctx : VarsMoved E E' ν τ ctx)
    (hps : ∀ p ∈ ps, TextMoved E E' ν τ p (τ p)) :
    LiftMirror id (RWL E E' ν τ) (sampleGens E ctx ps) (sampleGens E' (ctx.relabel ν) (ps.map τ)) := by
  induction ps with
  | nil => exact .nil
  | cons s ps ih =>
    simp only [sampleGens, List.map_cons]
    rcases (sampleGen_RW hS hctx (.text (hps s (by simp)))).cases with ⟨e, h1, h2⟩ | ⟨g, g', h1, h2, h3⟩
    · rw [h1, h2]; exact rfl
    · rw [h1, h2]
      rcases (ih fun c h => hps c (by simp [h])).cases with ⟨e, h4, h5⟩ | ⟨gs, gs', h4, h5, h6⟩
      · simp only [h4, h5]; exact rfl
      · simp only [h4, h5]; exact .cons h3 h6
end

/-! ### Lockstep -/

structure RecsRW (E E' : Env W) (ν τ : Str → Str) (r r' : Recs W) : Prop where
  good : Good E r
  G : ∀ g g', RW E E' ν τ g g' → Mirror id (SameText (RW E E' ν τ)) (r.G g) (r'.G g')
  A : ∀ a a', RWA E E' ν τ a a' → Mirror id (SameText (RWA E E' ν τ)) (r.A a) (r'.A a')
  S : ∀ coll coll' fr fr', RWC E E' ν τ coll coll' → RWS E E' ν τ fr fr' →
    Mirror id (fun x y => RWC E E' ν τ x.1 y.1 ∧ SameText (RWS E E' ν τ) x.2 y.2) (r.S coll fr) (r'.S coll' fr')
  P : ∀ fr fr', RWP E E' ν τ fr fr' → Mirror id (SameText (RWP E E' ν τ)) (r.P fr) (r'.P fr')
  plain : ∀ ctx t, PlainName E t → PlainName E' (ν t) →
    Mirror id (fun a b => a = t ∧ b = ν t) (r.sampleFirst E ctx (.inl t)) (r'.sampleFirst E' (ctx.relabel ν) (.inl (ν t)))

/-- A wildcard of the template and the wildcard it is moved to. -/
inductive NameMoved (E E' : Env W) (ν τ : Str → Str) : Prompt → Str → Str → Prop
  | renamed {t} : (∀ w w', E.getValues t w ≠ .ok [] w') → NameMoved E E' ν τ (.inl t) t (ν t)
  | kept {path wc} : (∀ t, path = .inl t → ν t = t) → PromptMoved E E' ν τ path (Path.relabel ν path) → NameMoved E E' ν τ path wc wc

section
variable (hS : Relabels E E' ν τ) {r r' : Recs W} (hr : RecsRW E E' ν τ r r')
include hr

theorem next!_RW {g g' : Gen} (hg : RW E E' ν τ g g') :
    Mirror id (fun x y => y.1 = x.1 ∧ RW E E' ν τ x.2 y.2) (r.next! g) (r'.next! g') := by
  unfold Recs.next!
  refine (hr.G g g' hg).bind fun a b hab => ?_
  rcases hab.cases with ⟨rfl, rfl⟩ | ⟨v, x, y, rfl, rfl, h⟩
  · exact .raise rfl
  · exact .pure ⟨rfl, h⟩

theorem rotate_RW {gs gs' : List Gen} (hg : RWL E E' ν τ gs gs') :
    Mirror id (fun x y => y.1 = x.1 ∧ RWL E E' ν τ x.2 y.2) (r.rotate gs) (r'.rotate gs') := by
  match hg with
  | .nil => exact .pure ⟨rfl, .nil⟩
  | .cons h h' =>
    unfold Recs.rotate
    exact (next!_RW hr h).bind fun x y hx => (rotate_RW h').bind fun x' y' hy =>
      .pure ⟨by simp only [hx.1, hy.1], .cons hx.2 hy.2⟩

include hS

theorem sampleFirst_RW {ctx : Ctx} {p p' : Prompt} (hctx : VarsMoved E E' ν τ ctx) (hpath : PromptMoved E E' ν τ p p') :
    Mirror id Eq (r.sampleFirst E ctx p) (r'.sampleFirst E' (ctx.relabel ν) p') := by
  unfold Recs.sampleFirst
  exact (Mirror.lift (sampleGen_RW hS hctx hpath)).bind fun g g' hg =>
    (next!_RW hr hg).bind fun x y hx => .pure hx.1.symm

theorem name_RW {ctx : Ctx} {path : Prompt} {m : Option Method} {v : List (Str × Cmd)} (hctx : VarsMoved E E' ν τ ctx)
    (hc : AllMoved E E' ν τ (.wild path m v)) :
    Mirror id (fun a b => (NameMoved E E' ν τ path a b ∧ SameValues E E' τ a b) ∧ Named E path a) (r.sampleFirst E ctx path)
      (r'.sampleFirst E' (ctx.relabel ν) (Path.relabel ν path)) := by
  refine Mirror.knowing ?_ fun w a w' h => ⟨_, sampleFirst_good hr.good h⟩
  obtain ⟨hmv, -⟩ := hc _ _ _ .refl
  cases hmv with
  | renamed h1 h2 h3 h4 =>
    exact (hr.plain ctx _ h1 h2).weaken fun a b h => by obtain ⟨rfl, rfl⟩ := h; exact ⟨.renamed h4, h3⟩
  | kept h1 h2 h3 =>
    rename_i t
    have hp : PromptMoved E E' ν τ (.inl t) (Path.relabel ν (.inl t)) := by
      simp only [Path.relabel, h1]
      exact .text ⟨h2, fun c h => moved_part hc (.pathText h)⟩
    exact ((sampleFirst_RW hS hr hctx hp).knowing (Q := Named E (.inl t)) fun w a w' h => ⟨_, sampleFirst_good hr.good h⟩).weaken
      fun a b h => by obtain ⟨rfl, h⟩ := h; exact ⟨.kept (fun t e => by cases e; exact h1) hp, h3 _ h⟩
  | made h3 =>
    rename_i c
    have hp : PromptMoved E E' ν τ (.inr c) (Path.relabel ν (.inr c)) := .cmd (moved_part hc .path)
    exact ((sampleFirst_RW hS hr hctx hp).knowing (Q := Named E (.inr c)) fun w a w' h => ⟨_, sampleFirst_good hr.good h⟩).weaken
      fun a b h => by obtain ⟨rfl, h⟩ := h; exact ⟨.kept (fun t e => by cases e) hp, h3 _ h⟩

theorem assign_RW {ctx : Ctx} (hctx : VarsMoved E E' ν τ ctx) (name : Str) {value : Cmd} (i o : Bool)
    (hv : AllMoved E E' ν τ value) :
    Mirror id (fun a b => b = a.relabel ν ∧ AllMoved E E' ν τ a) (r.assign E ctx name value i o)
      (r'.assign E' (ctx.relabel ν) name (value.relabel ν) i o) := by
  unfold Recs.assign
  have e : (if o = true then none else List.lookup name (ctx.relabel ν).vars) =
      (if o = true then none else List.lookup name ctx.vars).map (Cmd.relabel ν) := by
    split
    · rfl
    · exact lookup_relabel _ _
  rw [e]
  cases h : (if o = true then none else List.lookup name ctx.vars) with
  | some v =>
    refine .pure ⟨rfl, ?_⟩
    split at h
    · cases h
    · exact hctx _ (mem_of_lookup h)
  | none =>
    cases i with
    | false => exact .pure ⟨rfl, hv⟩
    | true =>
      simp only [if_true, Option.map_none]
      have key : Mirror id (fun a b => b = a.relabel ν ∧ AllMoved E E' ν τ a) (do
          let g ← M.lift (mkGen E.unknown ctx value)
          let (v, _) ← r.next! g
          return Cmd.lit v none) (do
          let g ← M.lift (mkGen E'.unknown (ctx.relabel ν) (value.relabel ν))
          let (v, _) ← r'.next! g
          return Cmd.lit v none) :=
        (Mirror.lift (mkGen_RW hS hctx hv)).bind fun g g' hg =>
          (next!_RW hr hg).bind fun x y hx => .pure ⟨by rw [hx.1]; rfl, moved_lit⟩
      rcases value with _ | _ | _ | ⟨_ | _, _, _⟩ | _ | ⟨_, _ | _⟩ | _ <;>
        first | exact Mirror.pure ⟨rfl, hv⟩ | exact key

theorem assigns_RW {ctx : Ctx} (hctx : VarsMoved E E' ν τ ctx) {cs : List Cmd} (hcs : ∀ c ∈ cs, AllMoved E E' ν τ c) :
    Mirror id (fun x y => y = (x.1.map (Cmd.relabel ν), Cmd.relabelV ν x.2) ∧ (∀ c ∈ x.1, AllMoved E E' ν τ c) ∧
        ∀ b ∈ x.2, AllMoved E E' ν τ b.2) (r.assigns E ctx cs) (r'.assigns E' (ctx.relabel ν) (cs.map (Cmd.relabel ν))) := by
  induction cs with
  | nil => exact .pure ⟨rfl, by simp⟩
  | cons c cs ih =>
    have ih := ih fun c h => hcs c (by simp [h])
    have hc := hcs c (by simp)
    have tok : Mirror id (fun x y => y = (x.1.map (Cmd.relabel ν), Cmd.relabelV ν x.2) ∧ (∀ c ∈ x.1, AllMoved E E' ν τ c) ∧
        ∀ b ∈ x.2, AllMoved E E' ν τ b.2) (do
          let (toks, new) ← r.assigns E ctx cs
          return (c :: toks, new)) (do
          let (toks, new) ← r'.assigns E' (ctx.relabel ν) (cs.map (Cmd.relabel ν))
          return (c.relabel ν :: toks, new)) := by
      refine ih.bind fun x y hxy => .pure ?_
      obtain ⟨rfl, h1, h2⟩ := hxy
      refine ⟨rfl, ?_, h2⟩
      intro x hx
      rcases List.mem_cons.1 hx with rfl | hx
      · exact hc
      · exact h1 x hx
    rcases c with _ | _ | _ | ⟨_ | _, _, _⟩ | ⟨n, v, i, o⟩ | ⟨_, _ | _⟩ | _
    case assign =>
      simp only [Recs.assigns, List.map_cons, Cmd.relabel]
      refine (assign_RW hS hr hctx n i o (moved_part hc .assigned)).bind fun a b hab => ih.bind fun x y hxy => .pure ?_
      obtain ⟨rfl, ha⟩ := hab
      obtain ⟨rfl, h1, h2⟩ := hxy
      refine ⟨?_, h1, ?_⟩
      · simp [relabelV_map]
      · intro x hx
        rcases List.mem_append.1 hx with hx | hx
        · exact h2 x hx
        · simp only [List.mem_singleton] at hx; subst hx; exact ha
    all_goals exact tok

omit hS in
theorem firstValues_RW {cs : List Cmd} {gs gs' : List Gen} (h : RWL E E' ν τ gs gs') :
    Mirror id (RWC E E' ν τ) (r.firstValues (cs.zip gs)) (r'.firstValues ((cs.map (Cmd.relabel ν)).zip gs')) := by
  match cs, h with
  | [], _ => exact .pure .nil
  | c :: cs, .nil => exact .pure .nil
  | c :: cs, .cons h h' =>
    simp only [List.map_cons, List.zip_cons_cons, Recs.firstValues]
    exact (next!_RW hr h).bind fun x y hx => (firstValues_RW h').bind fun a b hab => .pure (by
      rw [hx.1]; exact .cons hx.2 hab)

theorem mkColl_RW {ctx : Ctx} (hctx : VarsMoved E E' ν τ ctx) {cs : List Cmd} (hcs : ∀ c ∈ cs, AllMoved E E' ν τ c) :
    Mirror id (RWC E E' ν τ) (r.mkColl E ctx cs) (r'.mkColl E' (ctx.relabel ν) (cs.map (Cmd.relabel ν))) := by
  unfold Recs.mkColl
  exact (Mirror.lift (mkGens_RW hS hctx hcs)).bind fun gs gs' hgs => firstValues_RW hr hgs

theorem getValue_RW (c : Cmd) {coll coll' : Coll} (h : RWC E E' ν τ coll coll') :
    Mirror id (fun x y => y.1 = x.1 ∧ RWC E E' ν τ x.2 y.2) (r.getValue c coll) (r'.getValue (c.relabel ν) coll') := by
  match h with
  | .nil => exact .raise rfl
  | .cons (c := c') (g := g) (v := v) h1 h2 =>
    unfold Recs.getValue
    by_cases hc : c' = c
    · subst hc
      simp only [if_true]
      refine (hr.G _ _ h1).bind fun x y hx => ?_
      rcases hx.cases with ⟨rfl, rfl⟩ | ⟨v, x, y, rfl, rfl, h⟩
      · exact .pure ⟨rfl, .cons .done h2⟩
      · exact .pure ⟨rfl, .cons h h2⟩
    · have hc' : c'.relabel ν ≠ c.relabel ν := fun e => hc (relabel_injective hS.different e)
      simp only [hc, hc', if_false]
      exact (getValue_RW c h2).bind fun x y hx => .pure ⟨hx.1, .cons h1 hx.2⟩

omit hS hr in
theorem mapM_parse_RW {l : List Str} (hl : ∀ v ∈ l, TextMoved E E' ν τ v (τ v)) :
    LiftMirror id (fun a b => b = Cmd.relabelO ν a ∧ ∀ p ∈ a, AllMoved E E' ν τ p.1)
      (l.mapM (fun v => (E.parse v).map (fun c => (c, (1 : Rat)))))
      ((l.map τ).mapM (fun v => (E'.parse v).map (fun c => (c, (1 : Rat))))) := by
  induction l with
  | nil => exact ⟨rfl, by simp⟩
  | cons v l ih =>
    rw [List.map_cons, List.mapM_cons, List.mapM_cons]
    have ht := hl v (by simp)
    cases h1 : E.parse v with
    | error e => rw [ht.1.error e h1]; exact (err_relabel e).symm
    | ok c =>
      rw [ht.1.command c h1]
      have ih := ih fun v h => hl v (by simp [h])
      rcases ih.cases with ⟨e, h2, h3⟩ | ⟨o, o', h2, h3, h4, h5⟩
      · rw [h2, h3]; exact rfl
      · rw [h2, h3]
        refine ⟨by subst h4; rfl, ?_⟩
        intro p hp
        rcases List.mem_cons.1 hp with rfl | hp
        · exact ht.2 c h1
        · exact h5 p hp

omit hS hr in
theorem wild_values_moved {path : Prompt} {m : Option Method} {v : List (Str × Cmd)}
    (hc : AllMoved E E' ν τ (.wild path m v)) {items : List Item} (hi : ValuesOK E path items) :
    ∀ i ∈ items, TextMoved E E' ν τ i.content (τ i.content) := by
  intro i hi'
  obtain ⟨wc, hn, hwc⟩ := hi
  exact ⟨(hc _ _ _ .refl).2 wc items i hn hwc hi', fun c hpc => moved_part hc (.value hn hwc hi' hpc)⟩

omit hS hr in
theorem wild_texts_moved {path : Prompt} {m : Option Method} {v : List (Str × Cmd)}
    (hc : AllMoved E E' ν τ (.wild path m v)) {items : List Item} (hi : ValuesOK E path items) :
    ∀ x ∈ iterateWeighted items, TextMoved E E' ν τ x (τ x) := by
  intro x hx
  obtain ⟨i, hi', rfl⟩ := mem_iterateWeighted hx
  exact wild_values_moved hc hi i hi'

omit hS hr in
theorem iterateWeighted_retext (τ : Str → Str) (items : List Item) :
    iterateWeighted (items.map (retext τ)) = (iterateWeighted items).map τ := by
  unfold iterateWeighted
  rw [List.flatMap_map, List.map_flatMap]
  congr 1
  funext i
  rw [List.map_replicate]; rfl

omit hS hr in
theorem choice_retext (rng : Rng W) (f : α → β) (l : List α) :
    Mirror id (fun a b => b = f a) (rng.choice l) (rng.choice (l.map f)) := by
  intro w
  cases l with
  | nil => exact ⟨rfl, rfl⟩
  | cons a l =>
    have key : ∀ m, m = l.length → (rng.below m w).1.val = (rng.below l.length w).1.val ∧
        (rng.below m w).2 = (rng.below l.length w).2 := by rintro _ rfl; exact ⟨rfl, rfl⟩
    obtain ⟨k1, k2⟩ := key (l.map f).length (by simp)
    simp only [Rng.choice, List.map_cons]
    refine ⟨?_, k2.symm⟩
    rw [← List.map_cons, k1, List.getD_eq_getElem?_getD, List.getD_eq_getElem?_getD, List.getElem?_map]
    cases (a :: l)[(rng.below l.length w).1.val]? <;> rfl

omit hS hr in
theorem weightedNext_retext (rng : Rng W) (items : List Item) (buf : List Str) :
    Mirror id (fun x y => y = (τ x.1, x.2.map τ)) (weightedNext rng items buf)
      (weightedNext rng (items.map (retext τ)) (buf.map τ)) := by
  have e1 : hasVariedWeights (items.map (retext τ)) = hasVariedWeights items := by
    cases items with
    | nil => rfl
    | cons i items => simp only [hasVariedWeights, List.map_cons, List.any_map]; rfl
  have e2 : (items.map (retext τ)).map Item.content = (items.map Item.content).map τ := by
    simp [List.map_map, Function.comp_def, retext]
  have e3 : cumWeights rng.arith (items.map (retext τ)) = cumWeights rng.arith items := by
    unfold cumWeights
    rw [List.map_map]; rfl
  unfold weightedNext
  rw [e1, e2, e3]
  split
  · exact (choice_retext rng τ _).bind fun a b hab => .pure (by rw [hab]; rfl)
  · cases buf with
    | cons v buf => exact .pure rfl
    | nil =>
      refine (choicesCum_map rng τ _ _ 10).bind fun a b hab => ?_
      subst hab
      cases a with
      | nil => exact .raise rfl
      | cons v vs => exact .pure rfl

omit hS hr in
theorem withVars_relabel (ctx : Ctx) (new : List (Str × Cmd)) :
    (ctx.withVars new).relabel ν = (ctx.relabel ν).withVars (Cmd.relabelV ν new) := by
  simp [Ctx.relabel, Ctx.withVars, relabelV_append]

omit hS hr in
theorem VarsMoved.withVars {ctx : Ctx} (h : VarsMoved E E' ν τ ctx) {new : List (Str × Cmd)}
    (hn : ∀ b ∈ new, AllMoved E E' ν τ b.2) : VarsMoved E E' ν τ (ctx.withVars new) := by
  intro b hb
  rcases List.mem_append.1 hb with hb | hb
  · exact hn b hb
  · exact h b hb

omit hS hr in
theorem combos_moved {opts : List (Cmd × Rat)} (h : ∀ p ∈ opts, AllMoved E E' ν τ p.1) (lo hi : Int) :
    ∀ p ∈ boundCombos (opts.map (·.1)) lo hi, ∀ c ∈ p.2, AllMoved E E' ν τ c := by
  intro p hp c hcp
  simp only [boundCombos, List.mem_flatMap, List.mem_map] at hp
  obtain ⟨b, -, cs, hcs, rfl⟩ := hp
  obtain ⟨q, hq, rfl⟩ := List.mem_map.1 ((mem_getCombos.1 hcs).2.2 c hcp)
  exact h q hq

omit hr in
theorem combos_relabelled (opts : List (Cmd × Rat)) (lo hi : Int) :
    boundCombos ((Cmd.relabelO ν opts).map (·.1)) lo hi =
      (boundCombos (opts.map (·.1)) lo hi).map fun p => (p.1, p.2.map (Cmd.relabel ν)) := by
  rw [← boundCombos_renamed (relabel_injective hS.different), relabelO_map, List.map_map, List.map_map]
  rfl

omit hS hr in
theorem arrs_RW {ctx : Ctx} (hctx : VarsMoved E E' ν τ ctx) {l : List (Nat × List Cmd)}
    (hl : ∀ p ∈ l, ∀ c ∈ p.2, AllMoved E E' ν τ c) :
    RWAL E E' ν τ (l.map fun p => Arr.start ctx p.2)
      ((l.map fun p => (p.1, p.2.map (Cmd.relabel ν))).map fun p => Arr.start (ctx.relabel ν) p.2) := by
  induction l with
  | nil => exact .nil
  | cons a l ih => exact .cons (.start hctx (hl a (by simp))) (ih fun p h => hl p (by simp [h]))

omit hS hr in
theorem getValues_RW {path : Prompt} {wc wc' : Str} (hn : Named E path wc) (hv : SameValues E E' τ wc wc') :
    Mirror id (fun a b => b = a.map (retext τ) ∧ ValuesOK E path a ∧ Values E wc a) (E.getValues wc) (E'.getValues wc') := by
  refine Mirror.knowing ?_ fun w a w' h => ⟨⟨wc, hn, w, w', h⟩, w, w', h⟩
  rw [show E'.getValues wc' = _ from hv]
  intro w
  rw [M.bind_eq]
  cases E.getValues wc w with
  | ok a w1 => exact ⟨rfl, rfl⟩
  | err e w1 => exact ⟨(err_relabel e).symm, rfl⟩
  | fuel => trivial

theorem variant_RW {ctx : Ctx} (hctx : VarsMoved E E' ν τ ctx) {opts : List (Cmd × Rat)} {lo hi : Int} {sep : Str}
    {m : Option Method} (hc : AllMoved E E' ν τ (.variant opts lo hi sep m)) :
    Mirror id (RW E E' ν τ) (startG E r ctx (.variant opts lo hi sep m))
      (startG E' r' (ctx.relabel ν) (.variant (Cmd.relabelO ν opts) lo hi sep m)) := by
  have hopts : ∀ p ∈ opts, AllMoved E E' ν τ p.1 := fun p h => moved_part hc (.option h)
  have several : ∀ n : Nat, Mirror id (RW E E' ν τ)
      (match ctx.method with
        | .random => pure (.randVar ctx opts lo hi sep)
        | .cyc => pure (.cycVar sep ((boundCombos (opts.map (·.1)) (adjustBounds n lo hi).1 (adjustBounds n lo hi).2).map
            (fun p => Arr.start ctx p.2)))
        | .comb => pure (.combVar ctx sep [] (boundCombos (opts.map (·.1)) (adjustBounds n lo hi).1
            (adjustBounds n lo hi).2)) : M W Gen)
      (match ctx.method with
        | .random => pure (.randVar (ctx.relabel ν) (Cmd.relabelO ν opts) lo hi sep)
        | .cyc => pure (.cycVar sep ((boundCombos ((Cmd.relabelO ν opts).map (·.1)) (adjustBounds n lo hi).1
            (adjustBounds n lo hi).2).map (fun p => Arr.start (ctx.relabel ν) p.2)))
        | .comb => pure (.combVar (ctx.relabel ν) sep [] (boundCombos ((Cmd.relabelO ν opts).map (·.1))
            (adjustBounds n lo hi).1 (adjustBounds n lo hi).2)) : M W Gen) := by
    intro n
    cases ctx.method with
    | random => exact .pure (.randVar hctx hopts)
    | cyc =>
      rw [combos_relabelled hS]
      exact .pure (.cycVar (arrs_RW hctx (combos_moved hopts _ _)))
    | comb =>
      rw [combos_relabelled hS]
      exact .pure (.combVar hctx (combos_moved hopts _ _))
  match opts, hopts, several with
  | [], _, _ => exact .pure .done
  | [(c, x)], hopts, several =>
    have hc := hopts _ (List.mem_cons_self ..)
    by_cases hw : ∃ path m' v, c = .wild path m' v
    · obtain ⟨path, m', v, rfl⟩ := hw
      simp only [Cmd.relabelO, wild_relabel, startG]
      unfold Recs.wildcardToVariant
      refine Mirror.bind (P := fun a b => b = a.relabel ν ∧ AllMoved E E' ν τ a) ?_ fun a b hab => ?_
      · refine (name_RW hS hr hctx hc).bind fun wc wc' hwc => ?_
        obtain ⟨⟨-, hsv⟩, hn⟩ := hwc
        refine (getValues_RW hn hsv).bind fun items items' hit => ?_
        obtain ⟨rfl, hit, -⟩ := hit
        simp only [iterateWeighted_retext, List.length_map]
        refine (Mirror.lift (mapM_parse_RW (wild_texts_moved hc hit))).bind fun o o' ho => ?_
        obtain ⟨rfl, h2⟩ := ho
        exact .pure ⟨rfl, moved_variant h2⟩
      · obtain ⟨rfl, ha⟩ := hab
        exact .pure (.start hctx ha)
    · have e : startG E r ctx (.variant [(c, x)] lo hi sep m) =
          (match ctx.method with
          | .random => M.lift (mkGen E.unknown ctx c)
          | .cyc => pure (.cycVar sep ((boundCombos [c] (adjustBounds 1 lo hi).1 (adjustBounds 1 lo hi).2).map
              (fun p => Arr.start ctx p.2)))
          | .comb => pure (.combVar ctx sep [] (boundCombos [c] (adjustBounds 1 lo hi).1 (adjustBounds 1 lo hi).2))) := by
        cases c <;> first | rfl | exact absurd ⟨_, _, _, rfl⟩ hw
      have e' : startG E' r' (ctx.relabel ν) (.variant [(c.relabel ν, x)] lo hi sep m) =
          (match ctx.method with
          | .random => M.lift (mkGen E'.unknown (ctx.relabel ν) (c.relabel ν))
          | .cyc => pure (.cycVar sep ((boundCombos [c.relabel ν] (adjustBounds 1 lo hi).1 (adjustBounds 1 lo hi).2).map
              (fun p => Arr.start (ctx.relabel ν) p.2)))
          | .comb => pure (.combVar (ctx.relabel ν) sep [] (boundCombos [c.relabel ν] (adjustBounds 1 lo hi).1
              (adjustBounds 1 lo hi).2))) := by
        rcases c with _ | _ | _ | ⟨_ | _, _, _⟩ | _ | ⟨_, _ | _⟩ | _ <;> first | rfl | exact absurd ⟨_, _, _, rfl⟩ hw
      show Mirror id (RW E E' ν τ) _ (startG E' r' (ctx.relabel ν) (.variant [(c.relabel ν, x)] lo hi sep m))
      rw [e, e']
      have := several 1
      cases hme : ctx.method with
      | random => exact .lift (mkGen_RW hS hctx hc)
      | cyc => rw [hme] at this; exact this
      | comb => rw [hme] at this; exact this
  | a :: b :: opts, _, several =>
    have := several (a :: b :: opts).length
    have h1 : ∀ (E : Env W) (r : Recs W) (ctx : Ctx) (a b : Cmd × Rat) (l : List (Cmd × Rat)), startG E r ctx (.variant (a :: b :: l) lo hi sep m) =
        (match ctx.method with
        | .random => pure (.randVar ctx (a :: b :: l) lo hi sep)
        | .cyc => pure (.cycVar sep ((boundCombos ((a :: b :: l).map (·.1)) (adjustBounds (a :: b :: l).length lo hi).1
            (adjustBounds (a :: b :: l).length lo hi).2).map (fun p => Arr.start ctx p.2)))
        | .comb => pure (.combVar ctx sep [] (boundCombos ((a :: b :: l).map (·.1))
            (adjustBounds (a :: b :: l).length lo hi).1 (adjustBounds (a :: b :: l).length lo hi).2)) : M W Gen) := by
      intro E r ctx a b l
      obtain ⟨c, x⟩ := a
      cases c <;> rfl
    have e : Cmd.relabelO ν (a :: b :: opts) = (a.1.relabel ν, a.2) :: (b.1.relabel ν, b.2) :: Cmd.relabelO ν opts := rfl
    have hl : ((a.1.relabel ν, a.2) :: (b.1.relabel ν, b.2) :: Cmd.relabelO ν opts).length = (a :: b :: opts).length := by
      simp [relabelO_map]
    rw [e] at this ⊢
    rw [h1, h1, hl]
    exact this

theorem startG_RW {ctx : Ctx} (hctx : VarsMoved E E' ν τ ctx) {c : Cmd} (hc : AllMoved E E' ν τ c) :
    Mirror id (RW E E' ν τ) (startG E r ctx c) (startG E' r' (ctx.relabel ν) (c.relabel ν)) := by
  cases c with
  | lit t m => exact .pure .rep
  | variant opts lo hi sep m => exact variant_RW hS hr hctx hc
  | seq toks sep m =>
    simp only [Cmd.relabel, startG, relabelL_map]
    refine (assigns_RW hS hr hctx fun c h => moved_part hc (.token h)).bind fun a b hab => ?_
    obtain ⟨toks', new⟩ := a
    obtain ⟨rfl, h1, h2⟩ := hab
    have hctx' := hctx.withVars h2
    have key : Mirror id (RW E E' ν τ) (do
          let gens ← M.lift (mkGens E.unknown (ctx.withVars new) toks')
          return .seqNF sep gens : M W Gen) (do
          let gens ← M.lift (mkGens E'.unknown ((ctx.relabel ν).withVars (Cmd.relabelV ν new)) (toks'.map (Cmd.relabel ν)))
          return .seqNF sep gens) := by
      rw [← withVars_relabel]
      exact (Mirror.lift (mkGens_RW hS hctx' h1)).bind fun gs gs' hgs => .pure (.seqNF hgs)
    show Mirror id (RW E E' ν τ) (match ctx.method with | .comb => _ | _ => _) (match ctx.method with | .comb => _ | _ => _)
    cases h : ctx.method with
    | random => exact key
    | cyc => exact key
    | comb =>
      have hf : (toks'.map (Cmd.relabel ν)).filter (fun c => c.method ≠ some .comb) =
          (toks'.filter fun c => c.method ≠ some .comb).map (Cmd.relabel ν) := by
        rw [List.filter_map]
        congr 1
        apply List.filter_congr
        intro x _
        simp [relabel_method]
      show Mirror id (RW E E' ν τ) _ (do
        let coll ← r'.mkColl E' ((ctx.relabel ν).withVars (Cmd.relabelV ν new))
          ((toks'.map (Cmd.relabel ν)).filter (fun c => c.method ≠ some .comb))
        return .combSeq sep coll (.start ((ctx.relabel ν).withVars (Cmd.relabelV ν new))
          (sentinel :: toks'.map (Cmd.relabel ν) ++ [sentinel])))
      rw [hf, ← withVars_relabel]
      refine (mkColl_RW hS hr hctx' fun c h => h1 c (List.mem_of_mem_filter h)).bind fun coll coll' hcoll => .pure ?_
      have e : sentinel :: toks'.map (Cmd.relabel ν) ++ [sentinel] =
          (sentinel :: toks' ++ [sentinel]).map (Cmd.relabel ν) := by
        simp [sentinel, Cmd.relabel]
      rw [e]
      refine .combSeq hcoll (.start hctx' ?_)
      intro c hc
      simp only [List.cons_append, List.mem_cons, List.mem_append, List.not_mem_nil, or_false] at hc
      rcases hc with rfl | hc | rfl
      · exact moved_lit
      · exact h1 c hc
      · exact moved_lit
  | wild path m vars =>
    simp only [wild_relabel, startG]
    refine (name_RW hS hr hctx hc).bind fun wc wc' hwc => ?_
    obtain ⟨⟨hnm, hsv⟩, hn⟩ := hwc
    refine (getValues_RW hn hsv).bind fun vals vals' hvals => ?_
    obtain ⟨rfl, hvals, hgot⟩ := hvals
    have hctx' : VarsMoved E E' ν τ (ctx.withVars vars) := hctx.withVars fun b hb => moved_part hc (.param hb)
    rw [← withVars_relabel]
    by_cases hv : vals.isEmpty = true
    · rw [if_pos hv, if_pos (by simpa using hv)]
      unfold Recs.fallback
      refine Mirror.bind (P := Eq) ?_ fun v v' h => .pure (by rw [h, hS.missing]; exact .rep)
      cases hnm with
      | renamed hne =>
        obtain ⟨w, w', hw⟩ := hgot
        rw [List.isEmpty_iff] at hv
        exact absurd (hv ▸ hw) (hne w w')
      | kept hk hp =>
        cases path with
        | inl t => exact .pure (hk t rfl).symm
        | inr c => exact sampleFirst_RW hS hr hctx' hp
    · rw [if_neg hv, if_neg (by simpa using hv)]
      rw [iterateWeighted_retext]
      show Mirror id (RW E E' ν τ) (match ctx.method with | .random => _ | .cyc => _ | .comb => _)
        (match ctx.method with | .random => _ | .cyc => _ | .comb => _)
      cases h : ctx.method with
      | random => exact .pure (.randWild hctx' (wild_values_moved hc hvals) (by simp))
      | comb => exact .pure (.combWild hctx' (wild_texts_moved hc hvals) .done)
      | cyc =>
        exact (Mirror.lift (sampleGens_RW hS hctx' (wild_texts_moved hc hvals))).bind
          fun gs gs' hgs => .pure (.cycWild hgs)
  | assign => exact .raise rfl
  | access n d => rw [access_relabel]; exact .raise rfl
  | wrap wr inn m =>
    simp only [Cmd.relabel, startG]
    show Mirror id (RW E E' ν τ) (match ctx.method with | .random => _ | .comb => _ | .cyc => _)
        (match ctx.method with | .random => _ | .comb => _ | .cyc => _)
    cases h : ctx.method with
    | random =>
      exact (Mirror.lift (mkGen_RW hS hctx (moved_part hc .wrapper))).bind fun wg wg' hwg =>
        (Mirror.lift (mkGen_RW hS hctx (moved_part hc .inner))).bind fun ig ig' hig => .pure (.zipWrap hwg hig)
    | cyc => exact .raise rfl
    | comb =>
      exact (Mirror.lift (sampleGen_RW hS hctx (.cmd (moved_part hc .wrapper)))).bind
        fun wg wg' hwg => .pure (.combWrap hctx (moved_part hc .inner) hwg)

theorem stepG_RW {g g' : Gen} (hg : RW E E' ν τ g g') :
    Mirror id (SameText (RW E E' ν τ)) (stepG E r g) (stepG E' r' g') := by
  cases hg with
  | done => exact .pure trivial
  | start hctx hc =>
    rename_i ctx c
    have key : Mirror id (SameText (RW E E' ν τ)) (do let g ← startG E r ctx c; r.G g)
        (do let g ← startG E' r' (ctx.relabel ν) (c.relabel ν); r'.G g) :=
      (startG_RW hS hr hctx hc).bind fun g g' hg => hr.G g g' hg
    rcases c with ⟨t, m⟩ | _ | _ | ⟨_ | _, _, _⟩ | _ | ⟨_, _ | _⟩ | _
    case lit =>
      simp only [stepG, Cmd.relabel]
      show Mirror id (SameText (RW E E' ν τ)) (match ctx.method with | .comb => _ | _ => _) (match ctx.method with | .comb => _ | _ => _)
      cases h : ctx.method with
      | comb => exact .pure ⟨rfl, .done⟩
      | random => exact .pure ⟨rfl, .rep⟩
      | cyc => exact .pure ⟨rfl, .rep⟩
    all_goals exact key
  | rep => exact .pure ⟨rfl, .rep⟩
  | randVar hctx hopts =>
    rename_i ctx opts lo hi sep
    have e1 : (Cmd.relabelO ν opts).length = opts.length := by simp [relabelO_map]
    have e2 : (Cmd.relabelO ν opts).map (·.1) = (opts.map (·.1)).map (Cmd.relabel ν) := by
      simp [relabelO_map, List.map_map, Function.comp_def]
    have e3 : (Cmd.relabelO ν opts).map (·.2) = opts.map (·.2) := by
      simp [relabelO_map, List.map_map, Function.comp_def]
    simp only [stepG, e1, e2, e3, hS.rng]
    refine (randint_mirror _ _ _).bind fun k k' hk => ?_
    subst hk
    refine ((choose_map E.rng (relabel_injective hS.different) _ _ _).knowing (Q := fun sel => ∀ c ∈ sel, AllMoved E E' ν τ c)
      fun w sel w' h c hc => ?_).bind fun sel sel' hsel => ?_
    · obtain ⟨p, hp, rfl⟩ := List.mem_map.1 ((choose_ok h).1.subset hc)
      exact hopts p hp
    · obtain ⟨rfl, hsel⟩ := hsel
      refine (Mirror.lift (mkGens_RW hS hctx hsel)).bind fun gs gs' hgs => ?_
      cases hgs with
      | nil => exact .pure ⟨rfl, .randVar hctx hopts⟩
      | cons h h' =>
        exact (rotate_RW hr (.cons h h')).bind fun x y hx => .pure ⟨by simp only [hx.1], .randVar hctx hopts⟩
  | randWild hctx hi hbuf =>
    rename_i ctx items buf
    simp only [stepG, hS.rng]
    refine ((weightedNext_retext E.rng items buf (τ := τ)).knowing (Q := fun x => x.1 ∈ items.map Item.content ∧
      ∀ y ∈ x.2, y ∈ items.map Item.content) fun w x w1 h => weightedNext_ok h hbuf).bind fun x y hx => ?_
    obtain ⟨rfl, hx⟩ := hx
    obtain ⟨v, buf'⟩ := x
    obtain ⟨i, hi', rfl⟩ := List.mem_map.1 hx.1
    refine (Mirror.lift (sampleGen_RW hS hctx (.text (hi i hi')))).bind fun g g' hg =>
      (hr.G g g' hg).bind fun y y' hy => ?_
    rcases hy.cases with ⟨rfl, rfl⟩ | ⟨v, x, y, rfl, rfl, h⟩
    · exact hr.G _ _ (.randWild hctx hi hx.2)
    · exact .pure ⟨rfl, .randWild hctx hi hx.2⟩
  | zipWrap h1 h2 =>
    refine (hr.G _ _ h1).bind fun x x' hx => ?_
    rcases hx.cases with ⟨rfl, rfl⟩ | ⟨v, a, b, rfl, rfl, h⟩
    · exact .pure trivial
    · refine (hr.G _ _ h2).bind fun y y' hy => ?_
      rcases hy.cases with ⟨rfl, rfl⟩ | ⟨v', a', b', rfl, rfl, h'⟩
      · exact .pure trivial
      · exact .pure ⟨rfl, .zipWrap h h'⟩
  | seqNF h => exact (rotate_RW hr h).bind fun x y hx => .pure ⟨by simp only [hx.1], .seqNF hx.2⟩
  | cycVar h =>
    cases h with
    | nil => exact .diverge
    | cons h h' =>
      refine (hr.A _ _ h).bind fun x y hx => ?_
      rcases hx.cases with ⟨rfl, rfl⟩ | ⟨v, a, b, rfl, rfl, h1⟩
      · exact .raise rfl
      · exact .pure ⟨rfl, .cycVar (h'.append (.cons h1 .nil))⟩
  | cycWild h =>
    cases h with
    | nil => exact .pure trivial
    | cons h h' =>
      exact (next!_RW hr h).bind fun x y hx => .pure ⟨hx.1, .cycWild (h'.append (.cons hx.2 .nil))⟩
  | combSeq h1 h2 =>
    refine (hr.S _ _ _ _ h1 h2).bind fun x y hx => ?_
    obtain ⟨coll, x⟩ := x
    obtain ⟨coll', y⟩ := y
    rcases hx.2.cases with ⟨h, h'⟩ | ⟨v, a, b, h, h', h3⟩
    · dsimp only at h h'; subst h h'; exact .pure trivial
    · dsimp only at h h'; subst h h'; exact .pure ⟨rfl, .combSeq hx.1 h3⟩
  | combVar hctx hp =>
    rename_i ctx sep seen pend
    cases pend with
    | nil => exact .pure trivial
    | cons p pend =>
      exact hr.G _ _ (.combVarIn hctx (fun q h => hp q (by simp [h])) (.start hctx (hp p (by simp))))
  | combVarIn hctx hp hfr =>
    refine (hr.P _ _ hfr).bind fun x y hx => ?_
    rcases hx.cases with ⟨rfl, rfl⟩ | ⟨v, a, b, rfl, rfl, h⟩
    · exact hr.G _ _ (.combVar hctx hp)
    · dsimp only
      split
      · exact .pure ⟨rfl, .combVarIn hctx hp h⟩
      · exact hr.G _ _ (.combVarIn hctx hp h)
  | combWild hctx hv hcur =>
    rename_i ctx vals cur cur'
    refine (hr.G _ _ hcur).bind fun x y hx => ?_
    rcases hx.cases with ⟨rfl, rfl⟩ | ⟨v, a, b, rfl, rfl, h⟩
    · cases vals with
      | nil => exact .pure trivial
      | cons v vals =>
        exact (Mirror.lift (sampleGen_RW hS hctx (.text (hv v (by simp))))).bind
          fun g g' hg => hr.G _ _ (.combWild hctx (fun x h => hv x (by simp [h])) hg)
    · exact .pure ⟨rfl, .combWild hctx hv h⟩
  | combWrap hctx hi hw =>
    refine (hr.G _ _ hw).bind fun x y hx => ?_
    rcases hx.cases with ⟨rfl, rfl⟩ | ⟨v, a, b, rfl, rfl, h⟩
    · exact .pure trivial
    · exact (Mirror.lift (sampleGen_RW hS hctx (.cmd hi))).bind
        fun g g' hg => hr.G _ _ (.combWrapIn hctx hi h hg)
  | combWrapIn hctx hi hw hig =>
    refine (hr.G _ _ hig).bind fun x y hx => ?_
    rcases hx.cases with ⟨rfl, rfl⟩ | ⟨v, a, b, rfl, rfl, h⟩
    · exact hr.G _ _ (.combWrap hctx hi hw)
    · exact .pure ⟨rfl, .combWrapIn hctx hi hw h⟩
  | squash h =>
    refine (hr.G _ _ h).bind fun x y hx => ?_
    rcases hx.cases with ⟨rfl, rfl⟩ | ⟨v, a, b, rfl, rfl, h⟩
    · exact .pure trivial
    · exact .pure ⟨rfl, .squash h⟩

theorem stepA_RW {a a' : Arr} (ha : RWA E E' ν τ a a') : Mirror id (SameText (RWA E E' ν τ)) (stepA E r a) (stepA E' r' a') := by
  cases ha with
  | done => exact .pure trivial
  | nil => exact .pure ⟨rfl, .nil⟩
  | start hctx hc =>
    rename_i ctx combo
    cases combo with
    | nil => exact .pure ⟨rfl, .nil⟩
    | cons c cs =>
      exact (Mirror.lift (mkGen_RW hS hctx (hc c (by simp)))).bind fun g g' hg =>
        hr.A _ _ (.node hg (.start hctx fun c h => hc c (by simp [h])))
  | node h1 h2 =>
    refine (hr.A _ _ h2).bind fun x y hx => ?_
    rcases hx.cases with ⟨rfl, rfl⟩ | ⟨v, a, b, rfl, rfl, h⟩
    · exact .pure trivial
    · refine (hr.G _ _ h1).bind fun x y hx => ?_
      rcases hx.cases with ⟨rfl, rfl⟩ | ⟨v', a', b', rfl, rfl, h'⟩
      · exact .pure ⟨rfl, .done⟩
      · exact .pure ⟨rfl, .node h' h⟩

omit hS hr in
theorem effective_relabel (ctx : Ctx) (c : Cmd) : (ctx.relabel ν).effective (c.relabel ν) = ctx.effective c := by
  unfold Ctx.effective
  rw [relabel_method]
  rfl

theorem stepS_RW {coll coll' : Coll} {fr fr' : SFrame} (hcoll : RWC E E' ν τ coll coll') (hfr : RWS E E' ν τ fr fr') :
    Mirror id (fun x y => RWC E E' ν τ x.1 y.1 ∧ SameText (RWS E E' ν τ) x.2 y.2) (stepS E r coll fr) (stepS E' r' coll' fr') := by
  cases hfr with
  | done => exact .pure ⟨hcoll, trivial⟩
  | start hctx hc =>
    rename_i ctx cs
    cases cs with
    | nil => exact .pure ⟨hcoll, rfl, .done⟩
    | cons c cs =>
      have hcs : ∀ c ∈ cs, AllMoved E E' ν τ c := fun c h => hc c (by simp [h])
      simp only [stepS, List.map_cons, effective_relabel]
      split
      · exact hr.S _ _ _ _ hcoll (.nf (.start hctx hcs))
      · exact (Mirror.lift (mkGen_RW hS hctx (hc c (by simp)))).bind fun g g' hg =>
          hr.S _ _ _ _ hcoll (.fin hctx hcs hg)
  | nf h =>
    refine (hr.S _ _ _ _ hcoll h).bind fun x y hx => ?_
    obtain ⟨coll1, x⟩ := x
    obtain ⟨coll2, y⟩ := y
    rcases hx.2.cases with ⟨h1, h2⟩ | ⟨v, a, b, h1, h2, h3⟩
    · dsimp only at h1 h2; subst h1 h2; exact .pure ⟨hx.1, trivial⟩
    · dsimp only at h1 h2
      subst h1 h2
      refine (getValue_RW hS hr _ hx.1).bind fun x y hxy => ?_
      obtain ⟨o, coll3⟩ := x
      obtain ⟨o', coll4⟩ := y
      obtain ⟨h4, h5⟩ := hxy
      dsimp only at h4 h5
      subst h4
      cases o' with
      | none => exact .pure ⟨h5, rfl, .nf h3⟩
      | some v => exact .pure ⟨h5, rfl, .nf h3⟩
  | fin hctx hc hg =>
    refine (hr.G _ _ hg).bind fun x y hx => ?_
    rcases hx.cases with ⟨rfl, rfl⟩ | ⟨v, a, b, rfl, rfl, h⟩
    · exact .pure ⟨hcoll, trivial⟩
    · exact hr.S _ _ _ _ hcoll (.finIn hctx hc h (.start hctx hc))
  | finIn hctx hc hg hcur =>
    refine (hr.S _ _ _ _ hcoll hcur).bind fun x y hx => ?_
    obtain ⟨coll1, x⟩ := x
    obtain ⟨coll2, y⟩ := y
    rcases hx.2.cases with ⟨h1, h2⟩ | ⟨v, a, b, h1, h2, h3⟩
    · dsimp only at h1 h2; subst h1 h2; exact hr.S _ _ _ _ hx.1 (.fin hctx hc hg)
    · dsimp only at h1 h2; subst h1 h2; exact .pure ⟨hx.1, rfl, .finIn hctx hc hg h3⟩

theorem stepP_RW {fr fr' : PFrame} (hfr : RWP E E' ν τ fr fr') :
    Mirror id (SameText (RWP E E' ν τ)) (stepP E r fr) (stepP E' r' fr') := by
  cases hfr with
  | done => exact .pure trivial
  | start hctx hc =>
    rename_i ctx cs
    cases cs with
    | nil => exact .pure ⟨rfl, .done⟩
    | cons c cs =>
      have hcs : ∀ c ∈ cs, AllMoved E E' ν τ c := fun c h => hc c (by simp [h])
      simp only [stepP, List.map_cons, effective_relabel]
      refine (Mirror.lift (mkGen_RW hS hctx (hc c (by simp)))).bind fun g g' hg => ?_
      split
      · exact hr.P _ _ (.nf hg (.start hctx hcs))
      · exact hr.P _ _ (.fin hctx hcs hg)
  | nf hg h =>
    refine (hr.P _ _ h).bind fun x y hx => ?_
    rcases hx.cases with ⟨rfl, rfl⟩ | ⟨v, a, b, rfl, rfl, h1⟩
    · exact .pure trivial
    · exact (next!_RW hr hg).bind fun x y hx => .pure ⟨by simp only [hx.1], .nf hx.2 h1⟩
  | fin hctx hc hg =>
    refine (hr.G _ _ hg).bind fun x y hx => ?_
    rcases hx.cases with ⟨rfl, rfl⟩ | ⟨v, a, b, rfl, rfl, h⟩
    · exact .pure trivial
    · exact hr.P _ _ (.finIn hctx hc h (.start hctx hc))
  | finIn hctx hc hg hcur =>
    refine (hr.P _ _ hcur).bind fun x y hx => ?_
    rcases hx.cases with ⟨rfl, rfl⟩ | ⟨v, a, b, rfl, rfl, h⟩
    · exact hr.P _ _ (.fin hctx hc hg)
    · exact .pure ⟨rfl, .finIn hctx hc hg h⟩

end

theorem plain_RW (hS : Relabels E E' ν τ) (n : Nat) (ctx : Ctx) (t : Str) (h : PlainName E t) (h' : PlainName E' (ν t)) :
    Mirror id (fun a b => a = t ∧ b = ν t) ((recs E n).sampleFirst E ctx (.inl t))
      ((recs E' n).sampleFirst E' (ctx.relabel ν) (.inl (ν t))) := by
  have hs : ∀ (E : Env W) (ctx : Ctx) (t : Str), PlainName E t → sampleGen E ctx (.inl t) =
      .ok (if E.ignoreWs then .squash (.start ctx (.lit t none)) else .start ctx (.lit t none)) := by
    intro E ctx t h
    have : t.isEmpty = false := by
      cases hn : t with
      | nil => exact absurd hn h.nonempty
      | cons => rfl
    simp only [sampleGen, this, h.literal]
    rfl
  have h1 : ∀ (E : Env W) (n : Nat) (ctx : Ctx) (t : Str), (recs E (n + 1)).G (.start ctx (.lit t none)) =
      pure (some (t, match ctx.method with | .comb => .done | _ => .rep t)) := by
    intro E n ctx t
    simp only [recs, stepG]; cases ctx.method <;> rfl
  have hsq := h.squashed
  have hsq' := h'.squashed
  unfold squashIf at hsq hsq'
  unfold Recs.sampleFirst Recs.next!
  rw [hs E ctx t h, hs E' _ _ h']
  rw [hS.whitespace] at hsq' ⊢
  by_cases hw : E.ignoreWs = true
  · simp only [hw, if_true] at hsq hsq' ⊢
    match n with
    | 0 => exact fun _ => trivial
    | 1 => exact fun _ => trivial
    | n + 2 =>
      have h2 : ∀ (E : Env W) (ctx : Ctx) (t : Str), squashWhitespace t = t → (recs E (n + 2)).G (.squash (.start ctx (.lit t none))) =
          pure (some (t, .squash (match ctx.method with | .comb => .done | _ => .rep t))) := by
        intro E ctx t ht
        have h3 := h1 E n ctx t
        simp only [recs] at h3
        simp only [recs]
        rw [stepG]
        simp only [h3, M.mpure_bind, ht]
      show Mirror id _ ((recs E (n + 2)).G (.squash (.start ctx (.lit t none))) >>= _ >>= _)
        ((recs E' (n + 2)).G (.squash (.start (ctx.relabel ν) (.lit (ν t) none))) >>= _ >>= _)
      rw [h2 E ctx t hsq, h2 E' _ _ hsq']
      exact fun w => ⟨⟨rfl, rfl⟩, rfl⟩
  · simp only [hw] at hsq hsq' ⊢
    match n with
    | 0 => exact fun _ => trivial
    | n + 1 =>
      show Mirror id _ ((recs E (n + 1)).G (.start ctx (.lit t none)) >>= _ >>= _)
        ((recs E' (n + 1)).G (.start (ctx.relabel ν) (.lit (ν t) none)) >>= _ >>= _)
      rw [h1, h1]
      exact fun w => ⟨⟨rfl, rfl⟩, rfl⟩

theorem recs_RW (hS : Relabels E E' ν τ) (n : Nat) : RecsRW E E' ν τ (recs E n) (recs E' n) := by
  induction n with
  | zero => exact ⟨recs_good E 0, fun _ _ _ => .diverge, fun _ _ _ => .diverge, fun _ _ _ _ _ _ => .diverge,
      fun _ _ _ => .diverge, plain_RW hS 0⟩
  | succ n ih =>
    exact ⟨recs_good E (n + 1), fun g g' hg => stepG_RW hS ih hg, fun a a' ha => stepA_RW hS ih ha,
      fun coll coll' fr fr' h1 h2 => stepS_RW hS ih h1 h2, fun fr fr' h => stepP_RW hS ih h, plain_RW hS (n + 1)⟩

theorem collect_RW (hS : Relabels E E' ν τ) (n k : Nat) {g g' : Gen} (hg : RW E E' ν τ g g') (w : W) :
    (collect E' n k g' w).1 = (collect E n k g w).1 ∧
      SameEndRenamed id (collect E n k g w).2 (collect E' n k g' w).2 := by
  induction k generalizing g g' w with
  | zero => exact ⟨rfl, rfl⟩
  | succ k ih =>
    have h1 := (recs_RW hS n).G g g' hg w
    simp only [collect, nextG]
    cases hx : (recs E n).G g w with
    | ok a w1 =>
      cases hy : (recs E' n).G g' w with
      | ok b w2 =>
        rw [hx, hy] at h1
        obtain ⟨h2, rfl⟩ := h1
        rcases h2.cases with ⟨rfl, rfl⟩ | ⟨v, a, b, rfl, rfl, h⟩
        · exact ⟨rfl, rfl⟩
        · have := ih h w1
          exact ⟨by dsimp only; rw [this.1], this.2⟩
      | err e w2 => rw [hx, hy] at h1; exact h1.elim
      | fuel => rw [hx, hy] at h1; exact h1.elim
    | err e w1 =>
      cases hy : (recs E' n).G g' w with
      | ok b w2 => rw [hx, hy] at h1; exact h1.elim
      | err e w2 => rw [hx, hy] at h1; exact ⟨rfl, h1⟩
      | fuel => rw [hx, hy] at h1; exact h1.elim
    | fuel =>
      cases hy : (recs E' n).G g' w with
      | ok b w2 => rw [hx, hy] at h1; exact h1.elim
      | err e w2 => rw [hx, hy] at h1; exact h1.elim
      | fuel => exact ⟨rfl, trivial⟩

end
end Verif
