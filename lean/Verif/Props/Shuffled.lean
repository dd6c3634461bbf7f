import Verif.Proofs.Shuffled
import Verif.Props.System
/-!
# Properties of sampling with a manager that may shuffle (C64)
-/

namespace Verif.Props
open Verif Verif.Spec

variable {R S : Type}

/-- Operations that leave the files alone; shuffling may be turned on and off. -/
def LeavesFiles : SysOp R S → Prop
  | .mgr op => ReadOnly op
  | _ => True

/-! ## Proof -/

/-- The manager is in order, with these files and settings, whether or not it shuffles. -/
structure InOrder (cfg : MgrCfg R) (fs : FNode) (sort dedup : Bool) (m : Mgr R) : Prop where
  inv : MgrInv (fun _ => True) cfg m
  fs : m.fs = fs
  sort : m.sort = sort
  dedup : m.dedup = dedup

theorem applyOptions_perm (so de b : Bool) (u : List Item) :
    (applyOptions so de b u).Perm (applyOptions so de false u) := by
  unfold applyOptions
  cases so <;> cases b <;> simp [(sortItems_perm _).symm]

/-- What a lookup gives, up to order. -/
theorem get_shelf_perm (cfg : MgrCfg R) (fs : FNode) (sort dedup : Bool) (m : Mgr R) (wc : Str)
    (h : InOrder cfg fs sort dedup m) :
    ∃ m', InOrder cfg fs sort dedup m' ∧ (Mgr.getValues cfg wc m = .err .os m' ∨
      ∃ v out, shelfOf cfg fs sort dedup wc = .ok out ∧ v.Perm out ∧ Mgr.getValues cfg wc m = .ok v m') := by
  obtain ⟨hi, rfl, rfl, rfl⟩ := h
  unfold Mgr.getValues shelfOf
  rcases mgr_raw_gives _ cfg m wc hi with ⟨hp, s', e, x⟩ | ⟨u, b, s', hp, -, e, hi', h1, h2, h3, h4, h5⟩
  · exact ⟨s', ⟨hi.ext x, x.fs, x.sort, x.dedup⟩, .inl (by simp only [e])⟩
  · simp only [e, hp]
    by_cases hs : s'.shuffle = true
    · rw [if_pos hs]
      exact ⟨{ s' with rand := (cfg.rng.shuffle (applyOptions m.sort m.dedup b u) s'.rand).2 },
        ⟨⟨hi'.tree, hi'.cache, trivial⟩, h1, h2, h3⟩, .inr ⟨_, _, rfl,
        (shuffle_perm cfg.rng (applyOptions m.sort m.dedup b u) s'.rand).trans (applyOptions_perm _ _ _ _), rfl⟩⟩
    · rw [if_neg hs]
      exact ⟨_, ⟨hi', h1, h2, h3⟩, .inr ⟨_, _, rfl, applyOptions_perm _ _ _ _, rfl⟩⟩

theorem system_kept (c : SysCfg R S) (fs : FNode) (sort dedup : Bool) :
    KeptBy (fun s : Sys R S => InOrder c.mgr fs sort dedup s.mgr) (system c) where
  below _ _ h := h
  unit _ h := h
  values wc := by
    constructor
    · intro s a s' h e
      obtain ⟨m', hm, e' | ⟨v, out, -, -, e'⟩⟩ := get_shelf_perm c.mgr fs sort dedup s.mgr wc h
      all_goals
        change Sys.onMgr (Mgr.getValues c.mgr wc) s = _ at e
        unfold Sys.onMgr at e
        rw [e'] at e
        cases e
      exact hm
    · intro s a s' h e
      obtain ⟨m', hm, e' | ⟨v, out, -, -, e'⟩⟩ := get_shelf_perm c.mgr fs sort dedup s.mgr wc h
      all_goals
        change Sys.onMgr (Mgr.getValues c.mgr wc) s = _ at e
        unfold Sys.onMgr at e
        rw [e'] at e
        cases e
      exact hm

theorem system_reorders (c : SysCfg R S) (fs : FNode) (sort dedup : Bool) (r : S) :
    Reorders (restrictEnv (system_kept c fs sort dedup)) (withShelf c (shelfOf c.mgr fs sort dedup)) where
  parse := rfl
  ignoreWs := rfl
  unknown := rfl
  toWildcard := rfl
  values wc items hv := by
    obtain ⟨s, s', h, e⟩ := values_restrict _ hv
    obtain ⟨m', hm, e' | ⟨v, out, ho, hp, e'⟩⟩ := get_shelf_perm c.mgr fs sort dedup s.mgr wc h
    all_goals
      change Sys.onMgr (Mgr.getValues c.mgr wc) s = _ at e
      unfold Sys.onMgr at e
      rw [e'] at e
      cases e
    refine ⟨out, ⟨r, r, ?_⟩, hp⟩
    show M.lift (shelfOf c.mgr fs sort dedup wc) r = _
    rw [ho]
    rfl

theorem runSys_inOrder (c : SysCfg R S) (ops : List (SysOp R S)) : ∀ s : Sys R S,
    MgrInv (fun _ => True) c.mgr s.mgr → (∀ op ∈ ops, LeavesFiles op) →
    MgrInv (fun _ => True) c.mgr (runSys c ops s).mgr := by
  induction ops with
  | nil => intro s h _; exact h
  | cons op ops ih =>
    intro s h hq
    refine ih _ ?_ (fun o ho => hq o (by simp [ho]))
    cases op with
    | mgr op => exact mgr_op_inv _ c.mgr op s.mgr h (hq (.mgr op) (by simp)) (fun _ _ => trivial)
    | sample parser ws unknown ctx p fuel k =>
      exact (sample_keeps (system_kept { c with parser, ignoreWs := ws, unknown } s.mgr.fs s.mgr.sort s.mgr.dedup)
        fuel ctx p k s ⟨h, rfl, rfl, rfl⟩).inv
    | rand r => exact h

/-! ## C64 -/

/-- **C64.**  Let anything have happened to the manager before its cache was cleared, and anything since then, only
no changed file; shuffling may be on or off, and may have been switched any number of times.  Every prompt sampled
from any template can be derived from the template, where the wildcards stand for what the files say. -/
theorem shuffled_prompts_from_files (c : SysCfg R S) (past : Sys R S) (ops : List (SysOp R S))
    (hq : ∀ op ∈ ops, LeavesFiles op) :
    let s := runSys c ops { past with mgr := Mgr.clearCache past.mgr }
    ∀ shelf, OnShelf c.mgr s.mgr.fs s.mgr.sort s.mgr.dedup shelf →
    ∀ (fuel : Nat) (ctx : Ctx) (p : Prompt) (k : Nat),
      ∀ prompt ∈ (samplePrompts (system c) fuel ctx p k s).1, LangPrompt (withShelf c shelf) ctx.vars p prompt := by
  intro s shelf hs fuel ctx p k prompt hm
  obtain rfl := shelf_eq hs
  have hi := runSys_inOrder c ops { past with mgr := Mgr.clearCache past.mgr } (mgr_clear_inv _ c.mgr past.mgr trivial) hq
  exact (system_reorders c _ _ _ s.rand).prompt
    (sample_restrict_sound (system_kept c _ _ _) fuel ctx p k s ⟨hi, rfl, rfl, rfl⟩ prompt hm)

/-- **C64.**  The same from the text of an unambiguous template to what it stands for. -/
theorem shuffled_prompts_from_text (c : SysCfg R S) (M : Marks) (al : Char → Bool)
    (hM : M.usable al = true) (hc : c.parser = .of M al)
    (past : Sys R S) (ops : List (SysOp R S)) (hq : ∀ op ∈ ops, LeavesFiles op) :
    let s := runSys c ops { past with mgr := Mgr.clearCache past.mgr }
    ∀ shelf, OnShelf c.mgr s.mgr.fs s.mgr.sort s.mgr.dedup shelf →
    ∀ (ps : List Piece), Spec.ok .top ps M = true → '\t' ∉ source ps M →
    ∀ (fuel : Nat) (ctx : Ctx) (k : Nat),
      ∀ prompt ∈ (samplePrompts (system c) fuel ctx (.inl (source ps M)) k s).1,
        ∃ u, Lang (withShelf c shelf) ctx.vars (meaning ps) u ∧
          prompt = if c.ignoreWs then squashWhitespace u else u := by
  intro s shelf hs ps hok ht fuel ctx k prompt hm
  have := shuffled_prompts_from_files c past ops hq shelf hs fuel ctx _ k prompt hm
  cases this with
  | text hne hp hl =>
    change parse c.parser _ = _ at hp
    rw [hc, parse_source_marks M al hM ps hok ht] at hp
    obtain rfl := Except.ok.inj hp
    exact ⟨_, hl, rfl⟩

/-- A history that turns shuffling on, samples, and looks up. -/
def shuffledOps : List (SysOp Nat Nat) :=
  [.mgr (.shuffle true), .mgr (.get c!"b"), .sample (.default fun _ => false) true none (Demo.ctx .random)
    (.inl c!"__*__, __d/a__") 30 3, .mgr (.sort false), .rand 5]

example : ∀ op ∈ shuffledOps, LeavesFiles op := by simp [shuffledOps, LeavesFiles, ReadOnly]

/-- Shuffling is on. -/
example : (runSys sysCfg shuffledOps ⟨newMgr sysFs 0, 0⟩).mgr.shuffle = true := by decide +kernel

/-- The prompts come in another order than without shuffling. -/
example : (samplePrompts (system sysCfg) 40 (Demo.ctx .comb) (.inl c!"{a|__b__}!") 9
    (runSys sysCfg shuffledOps ⟨newMgr sysFs 0, 0⟩)).1 =
    [c!"a!", c!"red!", c!"dark blue!", c!"dark green!", c!"light green!", c!"light blue!"] := by decide +kernel

/-- Other marks: `<a|**b**>`. -/
example : ({ sysCfg with parser := .of angles fun _ => false } : SysCfg Nat Nat).parser = .of angles (fun _ => false) ∧
    Spec.ok .top [.choice [] none none (.mk [] none [.text c!"a"]) [.mk [] none [.wild none [.text c!"d/a"] []]]]
      angles = true ∧
    (samplePrompts (system { sysCfg with parser := .of angles fun _ => false }) 40 (Demo.ctx .comb)
      (.inl (source [.choice [] none none (.mk [] none [.text c!"a"]) [.mk [] none [.wild none [.text c!"d/a"] []]]]
        angles)) 9 (runSys sysCfg shuffledOps ⟨newMgr sysFs 0, 0⟩)).1 = [c!"a", c!"blue", c!"green"] :=
  ⟨rfl, by decide +kernel, by decide +kernel⟩

end Verif.Props
