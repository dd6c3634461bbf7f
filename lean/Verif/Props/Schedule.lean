import Verif.Model.Process
import Verif.Proofs.ProcessSim
import Verif.Props.System
/-!
# Properties of programs with several generators and iterators (C72, C73)
-/

namespace Verif.Props
open Verif Verif.Spec

variable {R S : Type}

/-! ## Programs and what they see -/

/-- One step of a program. -/
inductive ProcOp where
  /-- something is done to the manager -/
  | mgr (op : MgrOp)
  /-- something is done with a context or a generator that uses the random generator object `u` -/
  | act (u : Nat) (a : Act)

/-- Runs a program: every action with its answer. -/
def trace (c : ProcCfg R S) (fuel : Nat) : List ProcOp → Proc R S → List (Nat × Act × Answer)
  | [], _ => []
  | .mgr op :: ops, p => trace c fuel ops { p with mgr := op.run c.mgr p.mgr }
  | .act u a :: ops, p => (u, a, (p.act c fuel u a).1) :: trace c fuel ops (p.act c fuel u a).2

/-- The answers to the actions of `u`. -/
def answersOf (u : Nat) (l : List (Nat × Act × Answer)) : List Answer :=
  (l.filter fun x => x.1 = u).map fun x => x.2.2

/-- Steps that neither change the files nor turn shuffling on. -/
def QuietOp : ProcOp → Prop
  | .mgr op => ReadOnly op ∧ NoShuffle op
  | .act _ _ => True

/-- Steps that concern `u`: its own actions and changes of the settings of the manager. -/
def concerns (u : Nat) : ProcOp → Bool
  | .act v _ => v = u
  | .mgr (.sort _) => true
  | .mgr (.dedup _) => true
  | .mgr _ => false

/-- The user `u` alone with the shelves: no other user, no manager, no cache, no files.  `shelf sort dedup` is the
shelf for these settings. -/
def alone (c : ProcCfg R S) (fuel : Nat) (shelf : Bool → Bool → Str → Except Err (List Item)) (u : Nat) :
    List ProcOp → Bool → Bool → User S → List Answer
  | [], _, _, _ => []
  | .mgr (.sort b) :: ops, _, dedup, x => alone c fuel shelf u ops b dedup x
  | .mgr (.dedup b) :: ops, sort, _, x => alone c fuel shelf u ops sort b x
  | .mgr _ :: ops, sort, dedup, x => alone c fuel shelf u ops sort dedup x
  | .act v a :: ops, sort, dedup, x =>
    if v = u then
      let y := a.run (fun o => withShelf (c.sys o) (shelf sort dedup)) c.seed fuel x.iters x.rand
      y.1 :: alone c fuel shelf u ops sort dedup ⟨y.2.2, y.2.1⟩
    else alone c fuel shelf u ops sort dedup x

/-! ## Proof -/

/-- The settings after an operation. -/
def sortAfter : MgrOp → Bool → Bool
  | .sort b, _ => b
  | _, b => b

def dedupAfter : MgrOp → Bool → Bool
  | .dedup b, _ => b
  | _, b => b

theorem mgr_op_sound {cfg : MgrCfg R} {fs : FNode} {sort dedup : Bool} {m : Mgr R} (op : MgrOp)
    (h : Sound cfg fs sort dedup m) (hr : ReadOnly op) (hs : NoShuffle op) :
    Sound cfg fs (sortAfter op sort) (dedupAfter op dedup) (op.run cfg m) := by
  have hi := mgr_op_inv _ cfg op m h.inv hr (by
    rintro b rfl
    cases b with
    | false => rfl
    | true => exact hs.elim)
  have ext : ∀ {m'}, Ext cfg m m' → MgrInv (· = false) cfg m' → Sound cfg fs sort dedup m' := fun x hi =>
    ⟨hi, x.fs.trans h.fs, x.sort.trans h.sort, x.dedup.trans h.dedup⟩
  cases op with
  | get w =>
    obtain ⟨m', hm, -, e⟩ := get_shelf cfg fs sort dedup m w h
    simp only [MgrOp.run, e]
    cases shelfOf cfg fs sort dedup w <;> exact hm
  | clear => exact ⟨hi, h.fs, h.sort, h.dedup⟩
  | sort b => exact ⟨hi, h.fs, rfl, h.dedup⟩
  | dedup b => exact ⟨hi, h.fs, h.sort, rfl⟩
  | shuffle b => exact ⟨hi, h.fs, h.sort, h.dedup⟩
  | names =>
    obtain ⟨t, s', e, x, -⟩ := getTree_gives cfg m
    have : Mgr.collectionNames cfg m = .ok (t.map.map (·.1)) s' := by
      show M.bind (Mgr.getTree cfg) _ m = _
      simp only [M.bind, e]; rfl
    simp only [MgrOp.run, this] at hi ⊢
    exact ext x hi
  | getFile n =>
    simp only [MgrOp.run, Mgr.getFile]
    cases cleanWildcard cfg.wrap n with
    | none => exact h
    | some k =>
      obtain ⟨t, s', e, x, -⟩ := getTree_gives cfg m
      have : Sound cfg fs sort dedup (after m (M.bind (Mgr.getTree cfg) (fun t => match t.map.get k with
          | none => M.raise (.key k)
          | some c => pure c) m)) := by
        simp only [M.bind, e]
        cases t.map.get k with
        | none => exact ext x (h.inv.ext x)
        | some c => exact ext x (h.inv.ext x)
      exact this
  | readObj id =>
    rcases textGet_ext cfg m id with ⟨v, s', e, x⟩ | ⟨e', s', e, x⟩ <;>
      simp only [MgrOp.run, e] at hi ⊢ <;> exact ext x hi
  | writeObj id t => exact hr.elim
  | edit fs => exact hr.elim

theorem act_shelf (c : ProcCfg R S) (fuel : Nat) (fs : FNode) (sort dedup : Bool) (u : Nat) (a : Act) (p : Proc R S)
    (h : Sound c.mgr fs sort dedup p.mgr) :
    let x := p.act c fuel u a
    let y := a.run (fun o => withShelf (c.sys o) (shelfOf c.mgr fs sort dedup)) c.seed fuel (p.users u).iters
      (p.users u).rand
    x.1 = y.1 ∧ x.2.users u = ⟨y.2.2, y.2.1⟩ ∧ (∀ v, v ≠ u → x.2.users v = p.users v) ∧
      Sound c.mgr fs sort dedup x.2.mgr := by
  have key := act_sim (env := fun o => system (c.sys o)) (R := ShelfRel c.mgr fs sort dedup) (rng' := c.rng)
    (gv' := fun wc => M.lift (shelfOf c.mgr fs sort dedup wc)) (fun o => shelfRel_draws (c.sys o) fs sort dedup)
    (fun o => shelfRel_get (c.sys o) fs sort dedup) (reseed := Sys.reseed c.seed) (reseed' := c.seed)
    (by rintro i ⟨m, r⟩ r' ⟨h, e⟩; obtain rfl : r = r' := e; exact ⟨h, rfl⟩) fuel a (p.users u).iters
    ⟨p.mgr, (p.users u).rand⟩ (p.users u).rand ⟨h, rfl⟩
  obtain ⟨k1, k2, k3, k4⟩ := key
  refine ⟨k1, ?_, ?_, k3⟩
  · simp only [Proc.act, if_true]
    exact User.mk.injEq .. ▸ ⟨k4, k2⟩
  · intro v hv
    simp only [Proc.act, if_neg hv]

/-! ## C72 -/

/-- **C72.**  A generator in a process answers what the generator of its own settings (parser, white space, the
sampling method of its kind, no variables) answers on the manager and its random object, and leaves behind what
that generator leaves behind; nothing else changes. -/
theorem process_generators (c : ProcCfg R S) (fuel : Nat) (u : Nat) (p : Proc R S) (parser : ParserCfg) (ws : Bool)
    (t : Str) :
    let E : Env (Sys R S) := system ⟨c.mgr, parser, c.rng, ws, none⟩
    let w : Sys R S := ⟨p.mgr, (p.users u).rand⟩
    let sees : Act → Res (Sys R S) (List Str) → Prop := fun a r =>
      match r with
      | .ok l w' => (p.act c fuel u a).1 = .prompts (some (.ok l)) ∧ (p.act c fuel u a).2.mgr = w'.mgr ∧
          ((p.act c fuel u a).2.users u).rand = w'.rand
      | .err e w' => (p.act c fuel u a).1 = .prompts (some (.error e)) ∧ (p.act c fuel u a).2.mgr = w'.mgr ∧
          ((p.act c fuel u a).2.users u).rand = w'.rand
      | .fuel => (p.act c fuel u a).1 = .prompts none
    (∀ num seeds, sees (.random parser ws t num seeds) (randomGenerate E fuel (Sys.reseed c.seed) t num seeds w)) ∧
    (∀ max, sees (.comb parser ws t max) (combGenerate E fuel t max w)) ∧
    ∀ a : Act, ((∃ num seeds, a = .random parser ws t num seeds) ∨ ∃ max, a = .comb parser ws t max) →
      (∀ v, v ≠ u → (p.act c fuel u a).2.users v = p.users v) ∧
        ((p.act c fuel u a).2.users u).iters = (p.users u).iters := by
  intro E w sees
  refine ⟨fun num seeds => ?_, fun max => ?_, ?_⟩
  · have e : system (c.sys (generatorObj .random parser ws)) = E := rfl
    simp only [sees, Proc.act, Act.run, e]
    cases randomGenerate E fuel (Sys.reseed c.seed) t num seeds w <;> simp [Res.split]
  · have e : system (c.sys (generatorObj .comb parser ws)) = E := rfl
    simp only [sees, Proc.act, Act.run, e]
    cases combGenerate E fuel t max w <;> simp [Res.split]
  · rintro a (⟨num, seeds, rfl⟩ | ⟨max, rfl⟩)
    · exact ⟨fun v hv => by simp [Proc.act, hv], by simp [Proc.act, Act.run]⟩
    · exact ⟨fun v hv => by simp [Proc.act, hv], by simp [Proc.act, Act.run]⟩

/-- **C72.**  However the actions of several users are interleaved, and whatever else is done with the manager, a
user sees what it would see alone with the shelves. -/
theorem users_are_alone (c : ProcCfg R S) (fuel : Nat) (past : Proc R S) (ops : List ProcOp)
    (hoff : past.mgr.shuffle = false) (hq : ∀ op ∈ ops, QuietOp op)
    (shelf : Bool → Bool → Str → Except Err (List Item))
    (hs : ∀ sort dedup, OnShelf c.mgr past.mgr.fs sort dedup (shelf sort dedup)) (u : Nat) :
    answersOf u (trace c fuel ops { past with mgr := Mgr.clearCache past.mgr }) =
      alone c fuel shelf u ops past.mgr.sort past.mgr.dedup (past.users u) := by
  obtain rfl : shelf = shelfOf c.mgr past.mgr.fs := by
    funext a b
    exact shelf_eq (hs a b)
  have key : ∀ (ops : List ProcOp) (sort dedup : Bool) (p : Proc R S), (∀ op ∈ ops, QuietOp op) →
      Sound c.mgr past.mgr.fs sort dedup p.mgr → answersOf u (trace c fuel ops p) =
        alone c fuel (shelfOf c.mgr past.mgr.fs) u ops sort dedup (p.users u) := by
    intro ops
    induction ops with
    | nil => intros; rfl
    | cons op ops ih =>
      intro sort dedup p hq h
      have hq' : ∀ op ∈ ops, QuietOp op := fun o ho => hq o (by simp [ho])
      have hop := hq op (by simp)
      cases op with
      | mgr op =>
        have h1 := ih _ _ { p with mgr := op.run c.mgr p.mgr } hq' (mgr_op_sound op h hop.1 hop.2)
        rw [trace, h1]
        cases op <;> rfl
      | act v a =>
        obtain ⟨e1, e2, e3, e4⟩ := act_shelf c fuel _ sort dedup v a p h
        have h1 := ih _ _ _ hq' e4
        simp only [trace, alone]
        by_cases hv : v = u
        · subst hv
          simp only [answersOf, List.filter_cons, decide_true, if_true, List.map_cons] at h1 ⊢
          rw [h1, e1, e2]
        · simp only [answersOf, List.filter_cons, hv, decide_false] at h1 ⊢
          rw [if_neg (by simp), if_neg (by simp), h1, e3 u (fun e => hv e.symm)]
  exact key ops _ _ _ hq ⟨mgr_clear_inv _ c.mgr past.mgr hoff, rfl, rfl, rfl⟩

private theorem alone_concerns (c : ProcCfg R S) (fuel : Nat) (shelf : Bool → Bool → Str → Except Err (List Item))
    (u : Nat) (ops : List ProcOp) : ∀ sort dedup (x : User S),
    alone c fuel shelf u ops sort dedup x = alone c fuel shelf u (ops.filter (concerns u)) sort dedup x := by
  induction ops with
  | nil => intros; rfl
  | cons op ops ih =>
    intro sort dedup x
    cases op with
    | mgr op => cases op <;> simp only [List.filter_cons, concerns, if_true] <;> exact ih _ _ _
    | act v a =>
      by_cases hv : v = u
      · subst hv
        simp only [List.filter_cons, concerns, decide_true, if_true, alone]
        rw [ih]
      · simp only [List.filter_cons, concerns, hv, decide_false, alone, if_false]
        exact ih _ _ _

/-- **C72.**  Two programs in two processes with the same files and settings, whatever happened in them before the
caches were cleared: if they do the same with the random generator object `u`, and both find it and its iterators in
the same state, then `u` gives the same answers, whatever the other objects are used for and however the actions are
interleaved. -/
theorem other_users_do_not_matter (c : ProcCfg R S) (fuel : Nat) (past past' : Proc R S) (ops ops' : List ProcOp)
    (hoff : past.mgr.shuffle = false) (hoff' : past'.mgr.shuffle = false) (hq : ∀ op ∈ ops, QuietOp op)
    (hq' : ∀ op ∈ ops', QuietOp op) (hfs : past.mgr.fs = past'.mgr.fs) (hsort : past.mgr.sort = past'.mgr.sort)
    (hdedup : past.mgr.dedup = past'.mgr.dedup) (u : Nat) (hu : past.users u = past'.users u)
    (hsame : ops.filter (concerns u) = ops'.filter (concerns u)) :
    answersOf u (trace c fuel ops { past with mgr := Mgr.clearCache past.mgr }) =
      answersOf u (trace c fuel ops' { past' with mgr := Mgr.clearCache past'.mgr }) := by
  have h := fun a b => shelfOf_onShelf c.mgr past.mgr.fs a b
  rw [users_are_alone c fuel past ops hoff hq _ h, users_are_alone c fuel past' ops' hoff' hq' _ (hfs ▸ h),
    alone_concerns c fuel _ u ops, alone_concerns c fuel _ u ops', hsame, hsort, hdedup, hu, hfs]

/-- **C72.**  If the first thing done with the random generator object is to seed it, its state before does not
matter. -/
theorem seeded_users_repeat (c : ProcCfg R S) (hseed : ∀ n a b, c.seed n a = c.seed n b) (fuel : Nat)
    (past past' : Proc R S) (n : Int) (ops ops' : List ProcOp)
    (hoff : past.mgr.shuffle = false) (hoff' : past'.mgr.shuffle = false) (hq : ∀ op ∈ ops, QuietOp op)
    (hq' : ∀ op ∈ ops', QuietOp op) (hfs : past.mgr.fs = past'.mgr.fs) (hsort : past.mgr.sort = past'.mgr.sort)
    (hdedup : past.mgr.dedup = past'.mgr.dedup) (u : Nat) (hu : (past.users u).iters = (past'.users u).iters)
    (more : List ProcOp) (hsame : ops.filter (concerns u) = .act u (.seed n) :: more)
    (hsame' : ops'.filter (concerns u) = .act u (.seed n) :: more) :
    answersOf u (trace c fuel ops { past with mgr := Mgr.clearCache past.mgr }) =
      answersOf u (trace c fuel ops' { past' with mgr := Mgr.clearCache past'.mgr }) := by
  have h := fun a b => shelfOf_onShelf c.mgr past.mgr.fs a b
  rw [users_are_alone c fuel past ops hoff hq _ h, users_are_alone c fuel past' ops' hoff' hq' _ (hfs ▸ h),
    alone_concerns c fuel _ u ops, alone_concerns c fuel _ u ops', hsame, hsame', hsort, hdedup, hfs]
  simp only [alone, if_true, Act.run]
  rw [hseed n _ (past'.users u).rand, hu]

/-! ## C73 -/

/-- The answers to `next(iterator_j)` of `u`. -/
def nextAnswers (u j : Nat) (l : List (Nat × Act × Answer)) : List Answer :=
  (l.filter fun x => x.1 = u && match x.2.1 with
    | .next i => i = j
    | _ => false).map fun x => x.2.2

/-- The step opens the iterator anew. -/
def opens (u j : Nat) : ProcOp → Bool
  | .act v (.iterate i _ _) => v = u && i = j
  | _ => false

/-- The step changes the settings of the manager. -/
def resets : ProcOp → Bool
  | .mgr (.sort _) => true
  | .mgr (.dedup _) => true
  | _ => false

/-- The step is `next(iterator_j)` of `u`. -/
def advances (u j : Nat) : ProcOp → Bool
  | .act v (.next i) => v = u && i = j
  | _ => false

/-- The answers of a generator object without random parts; the random source is never used. -/
private def pureNexts (E : Env S) (fuel : Nat) (r : S) : Nat → Gen → List Answer
  | 0, _ => []
  | k + 1, g =>
    match nextG E fuel g r with
    | .ok none _ => .prompt (some (.ok none)) :: pureNexts E fuel r k .done
    | .ok (some (v, g')) _ => .prompt (some (.ok (some v))) :: pureNexts E fuel r k g'
    | .err e _ => .prompt (some (.error e)) :: pureNexts E fuel r k .done
    | .fuel => .prompt none :: pureNexts E fuel r k g

private theorem iterator_alone (c : ProcCfg R S) (fuel : Nat) (fs : FNode) (sort dedup : Bool) (u j : Nat)
    (o : CtxObj) (r : S) (E : Env S) (hE : E = withShelf (c.sys o) (shelfOf c.mgr fs sort dedup))
    (hu : ∀ c, E.unknown = some c → RandomFree E c) :
    ∀ (ops : List ProcOp) (p : Proc R S) (g : Gen), (∀ op ∈ ops, QuietOp op) →
      (∀ op ∈ ops, opens u j op = false ∧ resets op = false) → Sound c.mgr fs sort dedup p.mgr →
      (p.users u).iters j = (o, g) → NR E g →
      nextAnswers u j (trace c fuel ops p) = pureNexts E fuel r (ops.countP (advances u j)) g := by
  intro ops
  induction ops with
  | nil => intros; rfl
  | cons op ops ih =>
    intro p g hq hk h hg hn
    have hq' : ∀ op ∈ ops, QuietOp op := fun o ho => hq o (by simp [ho])
    have hk' : ∀ op ∈ ops, opens u j op = false ∧ resets op = false := fun o ho => hk o (by simp [ho])
    have hop := hq op (by simp)
    have hkop := hk op (by simp)
    cases op with
    | mgr op =>
      have h1 := mgr_op_sound op h hop.1 hop.2
      have e1 : sortAfter op sort = sort := by cases op <;> first | rfl | simp [resets] at hkop
      have e2 : dedupAfter op dedup = dedup := by cases op <;> first | rfl | simp [resets] at hkop
      rw [e1, e2] at h1
      rw [trace, List.countP_cons_of_neg (by simp [advances])]
      exact ih { p with mgr := op.run c.mgr p.mgr } g hq' hk' h1 hg hn
    | act v a =>
      obtain ⟨-, -, e3, e4⟩ := act_shelf c fuel _ sort dedup v a p h
      by_cases ha : v = u ∧ a = .next j
      · obtain ⟨rfl, rfl⟩ := ha
        rw [List.countP_cons_of_pos (by simp [advances])]
        simp only [trace, nextAnswers, List.filter_cons, decide_true, Bool.and_self, if_true, List.map_cons]
        have key := (recs_NR (E := E) (R := fun _ (s : Sys R S) => Sound c.mgr fs sort dedup s.mgr)
          (rng' := (system (c.sys o)).rng) (gv' := (system (c.sys o)).getValues) hu (by
            intro wc w w' hw
            subst hE
            have := shelfRel_get (c.sys o) fs sort dedup wc w' w'.rand ⟨hw, rfl⟩
            show SameOutcome _ (M.lift (shelfOf c.mgr fs sort dedup wc) w) _
            generalize (system (c.sys o)).getValues wc w' = y at this ⊢
            cases hsh : shelfOf c.mgr fs sort dedup wc with
            | ok v =>
              change SameOutcome _ y (M.lift (shelfOf c.mgr fs sort dedup wc) w'.rand) at this
              rw [hsh] at this
              cases y with
              | ok a w => exact ⟨this.1.symm, this.2.1⟩
              | err e w => exact this.elim
              | fuel => exact this.elim
            | error e =>
              change SameOutcome _ y (M.lift (shelfOf c.mgr fs sort dedup wc) w'.rand) at this
              rw [hsh] at this
              cases y with
              | ok a w => exact this.elim
              | err e w => exact ⟨this.1.symm, this.2.1⟩
              | fuel => exact this.elim) fuel).G g hn r ⟨p.mgr, (p.users v).rand⟩ h
        have hsw : swapWorld E (system (c.sys o)).rng (system (c.sys o)).getValues = system (c.sys o) := by
          subst hE; rfl
        rw [hsw] at key
        obtain ⟨k1, k2⟩ := key
        simp only [pureNexts]
        change SameOutcome _ (nextG E fuel g r) (nextG (system (c.sys o)) fuel g _) at k1
        change ∀ a w1, nextG E fuel g r = .ok a w1 → _ at k2
        have hrun : p.act c fuel v (.next j) = 
            let x := (Act.next j).run (fun o => system (c.sys o)) (Sys.reseed c.seed) fuel (p.users v).iters
              ⟨p.mgr, (p.users v).rand⟩
            (x.1, { mgr := x.2.2.mgr, users := fun w => if w = v then ⟨x.2.2.rand, x.2.1⟩ else p.users w }) := rfl
        simp only [Act.run, hg] at hrun
        rw [hrun] at e4 ⊢
        clear hrun
        generalize nextG E fuel g r = x at k1 k2 ⊢
        generalize nextG (system (c.sys o)) fuel g _ = y at k1 e4 ⊢
        cases x <;> cases y <;> first | exact k1.elim | skip
        · obtain ⟨rfl, k1⟩ := k1
          rename_i a _ _
          cases a with
          | none => exact congrArg _ (ih _ _ hq' hk' e4 (by simp [Iters.set]) .done)
          | some x => exact congrArg _ (ih _ _ hq' hk' e4 (by simp [Iters.set]) (k2 _ _ rfl))
        · obtain ⟨rfl, k1⟩ := k1
          exact congrArg _ (ih _ _ hq' hk' e4 (by simp [Iters.set]) .done)
        · exact congrArg _ (ih _ _ hq' hk' e4 (by simp [hg]) hn)
      · have hnot : ¬ advances u j (.act v a) := by
          cases a <;> simp [advances] at ha ⊢
          exact ha
        rw [List.countP_cons_of_neg hnot]
        have hf : nextAnswers u j (trace c fuel (.act v a :: ops) p) =
            nextAnswers u j (trace c fuel ops (p.act c fuel v a).2) := by
          simp only [trace, nextAnswers, List.filter_cons]
          rw [if_neg]
          cases a <;> simp [advances] at hnot ⊢
          exact hnot
        rw [hf]
        refine ih _ g hq' hk' e4 ?_ hn
        by_cases hv : v = u
        · subst hv
          simp only [Proc.act, if_true]
          rw [← hg]
          cases a with
          | seed n => rfl
          | random => rfl
          | comb => rfl
          | iterate i o' t =>
            have : i ≠ j := by simpa [opens] using hkop.1
            simp only [Act.run]
            split
            · rfl
            · simp [Iters.set, Ne.symm this]
          | next i =>
            have : i ≠ j := by simpa [advances] using hnot
            simp only [Act.run]
            split <;> simp [Iters.set, Ne.symm this]
        · rw [e3 u (fun e => hv e.symm)]; exact hg

private theorem iterator_opened (c : ProcCfg R S) (o : CtxObj) (t : Prompt) (shelf : Str → Except Err (List Item))
    (hfree : NoRandomness (withShelf (c.sys o) shelf) o.ctx t) (g : Gen)
    (hg : sampleGen (withShelf (c.sys o) shelf) o.ctx t = .ok g) : NR (withShelf (c.sys o) shelf) g :=
  sampleGen_NR hfree.unknown ⟨hfree.method, hfree.vars⟩ (by
    cases t with
    | inl s => exact fun c hc => hfree.text s c rfl hc
    | inr c => exact hfree.template c rfl) hg

private theorem iterator_trace (c : ProcCfg R S) (fuel : Nat) (o : CtxObj) (t : Prompt) (g : Gen) (past : Proc R S)
    (u j : Nat) (ops : List ProcOp) (hoff : past.mgr.shuffle = false)
    (hq : ∀ op ∈ ops, QuietOp op) (hk : ∀ op ∈ ops, opens u j op = false ∧ resets op = false)
    (fs : FNode) (sort dedup : Bool) (h1 : past.mgr.fs = fs) (h2 : past.mgr.sort = sort) (h3 : past.mgr.dedup = dedup)
    (hg : sampleGen (withShelf (c.sys o) (shelfOf c.mgr fs sort dedup)) o.ctx t = .ok g)
    (hfree : NoRandomness (withShelf (c.sys o) (shelfOf c.mgr fs sort dedup)) o.ctx t)
    (hn : NR (withShelf (c.sys o) (shelfOf c.mgr fs sort dedup)) g) (r : S) :
    nextAnswers u j (trace c fuel (.act u (.iterate j o t) :: ops) { past with mgr := Mgr.clearCache past.mgr }) =
      pureNexts (withShelf (c.sys o) (shelfOf c.mgr fs sort dedup)) fuel r (ops.countP (advances u j)) g := by
  subst h1 h2 h3
  have e : ∀ l x, nextAnswers u j ((u, Act.iterate j o t, x) :: l) = nextAnswers u j l := by
    intro l x
    simp [nextAnswers]
  rw [trace, e]
  have hs0 : Sound c.mgr past.mgr.fs past.mgr.sort past.mgr.dedup (Mgr.clearCache past.mgr) :=
    ⟨mgr_clear_inv _ c.mgr past.mgr hoff, rfl, rfl, rfl⟩
  refine iterator_alone c fuel _ _ _ u j o r _ rfl hfree.unknown ops _ g hq hk
    (act_shelf c fuel _ _ _ u _ { past with mgr := Mgr.clearCache past.mgr } hs0).2.2.2 ?_ hn
  have : sampleGen (system (c.sys o)) o.ctx t = .ok g := hg
  simp only [Proc.act, Act.run, this, if_true, Iters.set]

/-- **C73.**  An iterator over a template without random parts gives the same prompts, in the same order, whatever
else the program does between the calls of `next`: also if the random generator object is used and seeded, if other
iterators of the same context are advanced, and if other contexts sample.  Two such iterators in two processes with
the same files and settings, advanced equally often, give the same answers. -/
theorem iterators_do_not_interfere (c : ProcCfg R S) (fuel : Nat) (past past' : Proc R S) (o : CtxObj) (t : Prompt)
    (u u' j j' : Nat) (ops ops' : List ProcOp)
    (hoff : past.mgr.shuffle = false) (hoff' : past'.mgr.shuffle = false)
    (hq : ∀ op ∈ ops, QuietOp op) (hq' : ∀ op ∈ ops', QuietOp op)
    (hfs : past.mgr.fs = past'.mgr.fs) (hsort : past.mgr.sort = past'.mgr.sort)
    (hdedup : past.mgr.dedup = past'.mgr.dedup)
    (shelf : Str → Except Err (List Item)) (hs : OnShelf c.mgr past.mgr.fs past.mgr.sort past.mgr.dedup shelf)
    (hfree : NoRandomness (withShelf ⟨c.mgr, o.parser, c.rng, o.ignoreWs, o.unknown⟩ shelf) o.ctx t)
    (hk : ∀ op ∈ ops, opens u j op = false ∧ resets op = false)
    (hk' : ∀ op ∈ ops', opens u' j' op = false ∧ resets op = false)
    (hopen : ∃ g, sampleGen (withShelf ⟨c.mgr, o.parser, c.rng, o.ignoreWs, o.unknown⟩ shelf) o.ctx t = .ok g)
    (hcount : ops.countP (advances u j) = ops'.countP (advances u' j')) :
    nextAnswers u j (trace c fuel (.act u (.iterate j o t) :: ops) { past with mgr := Mgr.clearCache past.mgr }) =
      nextAnswers u' j'
        (trace c fuel (.act u' (.iterate j' o t) :: ops') { past' with mgr := Mgr.clearCache past'.mgr }) := by
  change NoRandomness (withShelf (c.sys o) shelf) o.ctx t at hfree
  change ∃ g, sampleGen (withShelf (c.sys o) shelf) o.ctx t = .ok g at hopen
  obtain ⟨g, hg⟩ := hopen
  obtain rfl := shelf_eq hs
  have hn := iterator_opened c o t _ hfree g hg
  rw [iterator_trace c fuel o t g past u j ops hoff hq hk _ _ _ rfl rfl rfl hg hfree hn (past.users 0).rand,
    iterator_trace c fuel o t g past' u' j' ops' hoff' hq' hk' _ _ _ hfs.symm hsort.symm hdedup.symm hg hfree hn
      (past.users 0).rand, hcount]

/-- The prompts among answers. -/
def promptsIn (l : List Answer) : List Str :=
  l.filterMap fun
    | .prompt (some (.ok (some v))) => some v
    | _ => none

private theorem no_prompts_when_done (E : Env S) (fuel : Nat) (r : S) (k : Nat) :
    promptsIn (pureNexts E fuel r k .done) = [] := by
  induction k with
  | zero => rfl
  | succ k ih =>
    cases fuel with
    | zero =>
      have : nextG E 0 .done r = .fuel := rfl
      simp only [pureNexts, this, promptsIn, List.filterMap_cons] at ih ⊢
      exact ih
    | succ fuel =>
      have : nextG E (fuel + 1) .done r = .ok none r := rfl
      simp only [pureNexts, this, promptsIn, List.filterMap_cons] at ih ⊢
      exact ih

private theorem pureNexts_prompts (c : SysCfg R S) (shelf : Str → Except Err (List Item)) (fuel : Nat) (r : S)
    (hu : ∀ c', (withShelf c shelf).unknown = some c' → RandomFree (withShelf c shelf) c') (k : Nat) :
    ∀ g, NR (withShelf c shelf) g → ∀ r',
      promptsIn (pureNexts (withShelf c shelf) fuel r k g) = (collect (withShelf c shelf) fuel k g r').1 := by
  induction k with
  | zero => intros; rfl
  | succ k ih =>
    intro g hg r'
    have key := (recs_NR (E := withShelf c shelf) (R := fun _ (_ : S) => True) (rng' := c.rng)
      (gv' := fun wc => M.lift (shelf wc)) hu (by
        intro wc w w' _
        show SameOutcome _ (M.lift (shelf wc) w) (M.lift (shelf wc) w')
        cases shelf wc with
        | ok v => exact ⟨rfl, trivial⟩
        | error e => exact ⟨rfl, trivial⟩) fuel).G g hg r r' trivial
    obtain ⟨k1, k2⟩ := key
    change SameOutcome _ (nextG (withShelf c shelf) fuel g r) (nextG (withShelf c shelf) fuel g r') at k1
    change ∀ a w1, nextG (withShelf c shelf) fuel g r = .ok a w1 → _ at k2
    simp only [pureNexts, collect]
    by_cases hfu : nextG (withShelf c shelf) fuel g r = .fuel
    · have : nextG (withShelf c shelf) fuel g r' = .fuel := by
        rw [hfu] at k1
        generalize nextG (withShelf c shelf) fuel g r' = y at k1 ⊢
        cases y <;> first | exact k1.elim | rfl
      simp only [hfu, this]
      clear ih k1 k2 this
      have : ∀ k, promptsIn (pureNexts (withShelf c shelf) fuel r k g) = [] := by
        intro k
        induction k with
        | zero => rfl
        | succ k ih => simp only [pureNexts, hfu, promptsIn, List.filterMap_cons] at ih ⊢; exact ih
      have h1 := this k
      simp only [promptsIn, List.filterMap_cons] at h1 ⊢
      exact h1
    · generalize nextG (withShelf c shelf) fuel g r = x at k1 k2 hfu ⊢
      generalize nextG (withShelf c shelf) fuel g r' = y at k1 ⊢
      have hd := no_prompts_when_done (withShelf c shelf) fuel r k
      cases x <;> cases y <;> first | exact k1.elim | skip
      · obtain ⟨rfl, -⟩ := k1
        rename_i a _ w'
        cases a with
        | none => simp only [promptsIn, List.filterMap_cons] at hd ⊢; exact hd
        | some x =>
          have := ih x.2 (k2 _ _ rfl) w'
          simp only [promptsIn, List.filterMap_cons] at this ⊢
          rw [this]
      · obtain ⟨rfl, -⟩ := k1
        simp only [promptsIn, List.filterMap_cons] at hd ⊢; exact hd
      · exact (hfu rfl).elim

/-- **C73.**  The prompts such an iterator gives in `k` calls of `next` are the first `k` prompts of the template,
sampled from the shelf with nothing else going on and with any random generator. -/
theorem iterators_give_their_prompts (c : ProcCfg R S) (fuel : Nat) (past : Proc R S) (o : CtxObj) (t : Prompt)
    (u j : Nat) (ops : List ProcOp) (hoff : past.mgr.shuffle = false) (hq : ∀ op ∈ ops, QuietOp op)
    (shelf : Str → Except Err (List Item)) (hs : OnShelf c.mgr past.mgr.fs past.mgr.sort past.mgr.dedup shelf)
    (hfree : NoRandomness (withShelf ⟨c.mgr, o.parser, c.rng, o.ignoreWs, o.unknown⟩ shelf) o.ctx t)
    (hk : ∀ op ∈ ops, opens u j op = false ∧ resets op = false)
    (hopen : ∃ g, sampleGen (withShelf ⟨c.mgr, o.parser, c.rng, o.ignoreWs, o.unknown⟩ shelf) o.ctx t = .ok g) (r : S) :
    promptsIn (nextAnswers u j
        (trace c fuel (.act u (.iterate j o t) :: ops) { past with mgr := Mgr.clearCache past.mgr })) =
      (samplePrompts (withShelf ⟨c.mgr, o.parser, c.rng, o.ignoreWs, o.unknown⟩ shelf) fuel o.ctx t (ops.countP (advances u j)) r).1 := by
  change NoRandomness (withShelf (c.sys o) shelf) o.ctx t at hfree
  change ∃ g, sampleGen (withShelf (c.sys o) shelf) o.ctx t = .ok g at hopen
  change _ = (samplePrompts (withShelf (c.sys o) shelf) fuel o.ctx t _ r).1
  obtain ⟨g, hg⟩ := hopen
  obtain rfl := shelf_eq hs
  have hn := iterator_opened c o t _ hfree g hg
  rw [iterator_trace c fuel o t g past u j ops hoff hq hk _ _ _ rfl rfl rfl hg hfree hn r,
    pureNexts_prompts (c.sys o) _ fuel r hfree.unknown _ g hn r]
  unfold samplePrompts
  rw [hg]

/-! ## An example -/

/-- The manager and the random generator of `sysCfg`. -/
def procCfg : ProcCfg Nat Nat := ⟨sysCfg.mgr, Demo.rng, sysSeed⟩

/-- A new process; the objects have different states, no iterator is open. -/
def newProc : Proc Nat Nat :=
  ⟨newMgr sysFs 0, fun u => ⟨u, fun _ => (generatorObj .random sysCfg.parser false, .done)⟩⟩

/-- A program with two random generator objects and three iterators. -/
def progA : List ProcOp :=
  [.act 1 (.seed 4),
   .act 2 (.iterate 0 (generatorObj .comb sysCfg.parser false) (.inl c!"{a|__b__}!")),
   .act 1 (.iterate 0 (generatorObj .random sysCfg.parser false) (.inl c!"{x|y} __d/a__")),
   .act 2 (.next 0), .act 1 (.next 0), .mgr (.get c!"b"), .act 2 (.random sysCfg.parser true c!"{1|2}" 2 .none),
   .act 2 (.next 0), .act 1 (.next 0),
   .act 2 (.iterate 1 (generatorObj .random sysCfg.parser false) (.inl c!"{x|y} __d/a__")),
   .act 2 (.next 1), .act 2 (.seed 9), .act 2 (.next 0), .act 1 (.next 0)]

/-- The first object is used in the same way, the rest of the program is another one. -/
def progB : List ProcOp :=
  [.mgr .names, .act 7 (.comb sysCfg.parser false c!"__*__" none), .act 1 (.seed 4), .mgr .clear,
   .act 1 (.iterate 0 (generatorObj .random sysCfg.parser false) (.inl c!"{x|y} __d/a__")),
   .act 1 (.next 0), .act 1 (.next 0), .act 1 (.next 0), .act 2 (.next 0)]

example : (∀ op ∈ progA, QuietOp op) ∧ ∀ op ∈ progB, QuietOp op := by
  simp [progA, progB, QuietOp, ReadOnly, NoShuffle]

example : progA.filter (concerns 1) = progB.filter (concerns 1) := rfl

/-- The first object gives the same prompts in both programs. -/
example : promptsIn (answersOf 1 (trace procCfg 40 progA newProc)) = [c!"y blue", c!"x green", c!"y blue"] ∧
    promptsIn (answersOf 1 (trace procCfg 40 progB newProc)) = [c!"y blue", c!"x green", c!"y blue"] := by
  decide +kernel

/-- The combinatorial iterator is not disturbed. -/
example : promptsIn (nextAnswers 2 0 (trace procCfg 40 progA newProc)) = [c!"a!", c!"red!", c!"dark blue!"] := by
  decide +kernel

end Verif.Props
