import Verif.Props.Marks
import Verif.Spec.System
import Verif.Proofs.WorldSim
import Verif.Props.Manager
import Verif.Props.Parser
import Verif.Props.Seeds
/-!
# Properties of sampling with the modelled parser and wildcard manager (C63, C64, C65)
-/

namespace Verif.Props
open Verif Verif.Spec

variable {R S : Type}

/-! ## Histories -/

/-- What can happen to the manager and the random generator of a sampling context before a prompt is
sampled. -/
inductive SysOp (R S : Type) where
  /-- anything done to the manager directly -/
  | mgr (op : MgrOp)
  /-- sampling of up to `k` prompts with this manager and this random generator, in any context (other
  settings, other variables, another method) -/
  | sample (parser : ParserCfg) (ignoreWs : Bool) (unknown : Option Cmd) (ctx : Ctx) (p : Prompt)
      (fuel k : Nat)
  /-- the random generator is seeded, or used by somebody else -/
  | rand (r : S)

/-- The state after an operation. -/
def SysOp.run (c : SysCfg R S) : SysOp R S → Sys R S → Sys R S
  | .mgr op, s => { s with mgr := op.run c.mgr s.mgr }
  | .sample parser ws unknown ctx p fuel k, s =>
    (worldAfter (samplePrompts (system { c with parser, ignoreWs := ws, unknown }) fuel ctx p k s).2).getD s
  | .rand r, s => { s with rand := r }

/-- The state after a history. -/
def runSys (c : SysCfg R S) (ops : List (SysOp R S)) (s : Sys R S) : Sys R S :=
  ops.foldl (fun s op => op.run c s) s

/-- Operations that neither change the files nor turn shuffling on. -/
def Quiet : SysOp R S → Prop
  | .mgr op => ReadOnly op ∧ NoShuffle op
  | _ => True

/-! ## Proof -/

/-- The shelf computed from the files. -/
def shelfOf (cfg : MgrCfg R) (fs : FNode) (sort dedup : Bool) (wc : Str) : Except Err (List Item) :=
  match pureLookup cfg fs wc with
  | none => .error .os
  | some u => .ok (applyOptions sort dedup false u)

theorem shelfOf_onShelf (cfg : MgrCfg R) (fs : FNode) (sort dedup : Bool) :
    OnShelf cfg fs sort dedup (shelfOf cfg fs sort dedup) := by
  intro wc
  constructor
  · intro found hf
    refine ⟨applyOptions sort dedup false found, ?_, options_arranged sort dedup found⟩
    unfold shelfOf
    rw [(pureLookup_finds cfg fs wc found).2 hf]
  · intro hn
    unfold shelfOf
    cases h : pureLookup cfg fs wc with
    | none => rfl
    | some u => exact (hn ⟨u, (pureLookup_finds cfg fs wc u).1 h⟩).elim

/-- The manager is in order, with these files and settings. -/
structure Sound (cfg : MgrCfg R) (fs : FNode) (sort dedup : Bool) (m : Mgr R) : Prop where
  inv : MgrInv (· = false) cfg m
  fs : m.fs = fs
  sort : m.sort = sort
  dedup : m.dedup = dedup

theorem get_shelf (cfg : MgrCfg R) (fs : FNode) (sort dedup : Bool) (m : Mgr R) (wc : Str)
    (h : Sound cfg fs sort dedup m) :
    ∃ m', Sound cfg fs sort dedup m' ∧ m'.rand = m.rand ∧ Mgr.getValues cfg wc m =
      match shelfOf cfg fs sort dedup wc with
      | .ok v => .ok v m'
      | .error e => .err e m' := by
  obtain ⟨hi, rfl, rfl, rfl⟩ := h
  unfold Mgr.getValues shelfOf
  rcases mgr_raw_gives _ cfg m wc hi with ⟨hp, s', e, x⟩ | ⟨u, b, s', hp, rfl, e, hi', h1, h2, h3, h4, h5⟩
  · exact ⟨s', ⟨hi.ext x, x.fs, x.sort, x.dedup⟩, x.rand, by simp only [e, hp]⟩
  · refine ⟨s', ⟨hi', h1, h2, h3⟩, h5, ?_⟩
    simp only [e, hp]
    rw [if_neg (by rw [hi'.now]; simp)]

/-- Worlds with a manager in order and the same random generator. -/
def ShelfRel (cfg : MgrCfg R) (fs : FNode) (sort dedup : Bool) (s : Sys R S) (r : S) : Prop :=
  Sound cfg fs sort dedup s.mgr ∧ s.rand = r

theorem shelfRel_draws (c : SysCfg R S) (fs : FNode) (sort dedup : Bool) :
    SameDraws (ShelfRel c.mgr fs sort dedup) (system c).rng c.rng where
  arith := rfl
  below n s r h := by
    obtain ⟨h, rfl⟩ := h
    exact ⟨rfl, h, rfl⟩
  unit s r h := by
    obtain ⟨h, rfl⟩ := h
    exact ⟨rfl, h, rfl⟩

theorem shelfRel_get (c : SysCfg R S) (fs : FNode) (sort dedup : Bool) (wc : Str) :
    SimW (ShelfRel c.mgr fs sort dedup) ((system c).getValues wc) (M.lift (shelfOf c.mgr fs sort dedup wc)) := by
  rintro s r ⟨h, rfl⟩
  obtain ⟨m', hm, hr, e⟩ := get_shelf c.mgr fs sort dedup s.mgr wc h
  show SameOutcome _ (Sys.onMgr (Mgr.getValues c.mgr wc) s) _
  unfold Sys.onMgr
  rw [e]
  cases shelfOf c.mgr fs sort dedup wc with
  | ok v => exact ⟨rfl, hm, rfl⟩
  | error e => exact ⟨rfl, hm, rfl⟩

private theorem collect_shelf (c : SysCfg R S) (fs : FNode) (sort dedup : Bool) (fuel k : Nat) (g : Gen)
    (s : Sys R S) (h : Sound c.mgr fs sort dedup s.mgr) :
    (collect (system c) fuel k g s).1 =
        (collect (withShelf c (shelfOf c.mgr fs sort dedup)) fuel k g s.rand).1 ∧
      SameStop (ShelfRel c.mgr fs sort dedup) (collect (system c) fuel k g s).2
        (collect (withShelf c (shelfOf c.mgr fs sort dedup)) fuel k g s.rand).2 :=
  collect_sim (E := system c) (shelfRel_draws c fs sort dedup) (shelfRel_get c fs sort dedup) fuel k g s s.rand ⟨h, rfl⟩

private theorem sample_shelf (c : SysCfg R S) (fs : FNode) (sort dedup : Bool) (fuel k : Nat) (ctx : Ctx)
    (p : Prompt) (s : Sys R S) (h : Sound c.mgr fs sort dedup s.mgr) :
    (samplePrompts (system c) fuel ctx p k s).1 =
        (samplePrompts (withShelf c (shelfOf c.mgr fs sort dedup)) fuel ctx p k s.rand).1 ∧
      SameStop (ShelfRel c.mgr fs sort dedup) (samplePrompts (system c) fuel ctx p k s).2
        (samplePrompts (withShelf c (shelfOf c.mgr fs sort dedup)) fuel ctx p k s.rand).2 := by
  unfold samplePrompts
  have e : sampleGen (withShelf c (shelfOf c.mgr fs sort dedup)) ctx p = sampleGen (system c) ctx p := rfl
  rw [e]
  cases sampleGen (system c) ctx p with
  | error e => exact ⟨rfl, rfl, h, rfl⟩
  | ok g => exact collect_shelf c fs sort dedup fuel k g s h

private theorem after_sample (c : SysCfg R S) (fs : FNode) (sort dedup : Bool) (fuel k : Nat) (ctx : Ctx)
    (p : Prompt) (s : Sys R S) (h : Sound c.mgr fs sort dedup s.mgr) :
    Sound c.mgr fs sort dedup ((worldAfter (samplePrompts (system c) fuel ctx p k s).2).getD s).mgr := by
  have := (sample_shelf c fs sort dedup fuel k ctx p s h).2
  generalize (samplePrompts (system c) fuel ctx p k s).2 = x at this ⊢
  generalize (samplePrompts (withShelf c (shelfOf c.mgr fs sort dedup)) fuel ctx p k s.rand).2 = y at this
  cases x <;> cases y <;> simp only [SameStop, ShelfRel] at this <;> try exact this.elim
  · exact this.2.1
  · exact this.1
  · exact this.2.1
  · exact h

private theorem runSys_inv (c : SysCfg R S) (ops : List (SysOp R S)) : ∀ s : Sys R S,
    MgrInv (· = false) c.mgr s.mgr → (∀ op ∈ ops, Quiet op) → MgrInv (· = false) c.mgr (runSys c ops s).mgr := by
  induction ops with
  | nil => intro s h _; exact h
  | cons op ops ih =>
    intro s h hq
    refine ih _ ?_ (fun o ho => hq o (by simp [ho]))
    cases op with
    | mgr op =>
      have hq := hq (.mgr op) (by simp)
      refine mgr_op_inv _ c.mgr op s.mgr h hq.1 ?_
      rintro b rfl
      cases b with
      | false => rfl
      | true => exact hq.2.elim
    | sample parser ws unknown ctx p fuel k =>
      exact (after_sample { c with parser, ignoreWs := ws, unknown } s.mgr.fs s.mgr.sort s.mgr.dedup fuel k ctx p
        s ⟨h, rfl, rfl, rfl⟩).inv
    | rand r => exact h

/-! ## C63 -/

/-- **C63.**  The files and the settings of a manager decide what every wildcard stands for. -/
theorem shelf_of_files (cfg : MgrCfg R) (fs : FNode) (sort dedup : Bool) :
    ∃! shelf, OnShelf cfg fs sort dedup shelf := by
  refine ⟨shelfOf cfg fs sort dedup, shelfOf_onShelf _ _ _ _, fun shelf h => ?_⟩
  funext wc
  have h' := shelfOf_onShelf cfg fs sort dedup wc
  by_cases hf : ∃ found, Finds cfg fs wc found
  · obtain ⟨found, hf⟩ := hf
    obtain ⟨o, e, ha⟩ := (h wc).1 found hf
    obtain ⟨o', e', ha'⟩ := h'.1 found hf
    rw [e, e', arranged_unique ha ha']
  · rw [(h wc).2 hf, h'.2 hf]

theorem shelf_eq {cfg : MgrCfg R} {fs : FNode} {sort dedup : Bool} {shelf : Str → Except Err (List Item)}
    (h : OnShelf cfg fs sort dedup shelf) : shelf = shelfOf cfg fs sort dedup :=
  (shelf_of_files cfg fs sort dedup).unique h (shelfOf_onShelf _ _ _ _)

/-- **C63.**  Let anything have happened to the manager before its cache was cleared, and anything since then
(lookups, other prompts sampled with the same manager, settings changed), only no changed file and no shuffling.
Sampling any template in any context then gives the prompts, and the end, that it gives with the shelf in place of
the manager. -/
theorem files_decide_prompts (c : SysCfg R S) (past : Sys R S) (ops : List (SysOp R S))
    (hoff : past.mgr.shuffle = false) (hq : ∀ op ∈ ops, Quiet op) :
    let s := runSys c ops { past with mgr := Mgr.clearCache past.mgr }
    ∀ shelf, OnShelf c.mgr s.mgr.fs s.mgr.sort s.mgr.dedup shelf →
    ∀ (fuel : Nat) (ctx : Ctx) (p : Prompt) (k : Nat),
      (samplePrompts (system c) fuel ctx p k s).1 =
        (samplePrompts (withShelf c shelf) fuel ctx p k s.rand).1 ∧
      SameStop (fun s' r => s'.rand = r ∧ s'.mgr.fs = s.mgr.fs) (samplePrompts (system c) fuel ctx p k s).2
        (samplePrompts (withShelf c shelf) fuel ctx p k s.rand).2 := by
  intro s shelf hs fuel ctx p k
  obtain rfl := shelf_eq hs
  have hi : MgrInv (· = false) c.mgr s.mgr := runSys_inv c ops _ (mgr_clear_inv _ c.mgr past.mgr hoff) hq
  obtain ⟨e1, e2⟩ := sample_shelf c _ _ _ fuel k ctx p s ⟨hi, rfl, rfl, rfl⟩
  refine ⟨e1, ?_⟩
  generalize (samplePrompts (system c) fuel ctx p k s).2 = x at e2 ⊢
  generalize (samplePrompts (withShelf c _) fuel ctx p k s.rand).2 = y at e2 ⊢
  cases x <;> cases y <;> simp only [SameStop, ShelfRel] at e2 ⊢ <;> try exact e2.elim
  · exact ⟨e2.1, e2.2.2, e2.2.1.fs⟩
  · exact ⟨e2.2, e2.1.fs⟩
  · exact ⟨e2.1, e2.2.2, e2.2.1.fs⟩

/-- **C63.**  The same for a generator object that was left after some prompts and is now asked for more. -/
theorem files_decide_rest (c : SysCfg R S) (past : Sys R S) (ops : List (SysOp R S))
    (hoff : past.mgr.shuffle = false) (hq : ∀ op ∈ ops, Quiet op) :
    let s := runSys c ops { past with mgr := Mgr.clearCache past.mgr }
    ∀ shelf, OnShelf c.mgr s.mgr.fs s.mgr.sort s.mgr.dedup shelf →
    ∀ (fuel : Nat) (g : Gen) (k : Nat),
      (collect (system c) fuel k g s).1 = (collect (withShelf c shelf) fuel k g s.rand).1 := by
  intro s shelf hs fuel g k
  obtain rfl := shelf_eq hs
  have hi : MgrInv (· = false) c.mgr s.mgr := runSys_inv c ops _ (mgr_clear_inv _ c.mgr past.mgr hoff) hq
  exact (collect_shelf c _ _ _ fuel k g s ⟨hi, rfl, rfl, rfl⟩).1

/-- Two ways to end are the same, up to what the manager remembers. -/
def SameEnd (a b : Stop (Sys R S)) : Prop :=
  SameStop (fun s t => s.rand = t.rand ∧ s.mgr.fs = t.mgr.fs) a b

/-- **C63.**  Two managers of the same configuration, with the same files and settings, are as good as one
another: whatever happened to each of them, the same random state gives the same prompts and the same end. -/
theorem history_does_not_matter (c : SysCfg R S) (past past' : Sys R S) (ops ops' : List (SysOp R S))
    (hoff : past.mgr.shuffle = false) (hoff' : past'.mgr.shuffle = false) (hq : ∀ op ∈ ops, Quiet op)
    (hq' : ∀ op ∈ ops', Quiet op) :
    let s := runSys c ops { past with mgr := Mgr.clearCache past.mgr }
    let t := runSys c ops' { past' with mgr := Mgr.clearCache past'.mgr }
    s.mgr.fs = t.mgr.fs → s.mgr.sort = t.mgr.sort → s.mgr.dedup = t.mgr.dedup → s.rand = t.rand →
    ∀ (fuel : Nat) (ctx : Ctx) (p : Prompt) (k : Nat),
      (samplePrompts (system c) fuel ctx p k s).1 = (samplePrompts (system c) fuel ctx p k t).1 ∧
      SameEnd (samplePrompts (system c) fuel ctx p k s).2 (samplePrompts (system c) fuel ctx p k t).2 := by
  intro s t h1 h2 h3 h4 fuel ctx p k
  obtain ⟨shelf, hsh, -⟩ := shelf_of_files c.mgr t.mgr.fs t.mgr.sort t.mgr.dedup
  have hs := files_decide_prompts c past ops hoff hq shelf (by rw [← h1, ← h2, ← h3] at hsh; exact hsh) fuel ctx p k
  have ht := files_decide_prompts c past' ops' hoff' hq' shelf hsh fuel ctx p k
  obtain ⟨a1, a2⟩ := hs
  obtain ⟨b1, b2⟩ := ht
  change _ = (samplePrompts (withShelf c shelf) fuel ctx p k s.rand).1 at a1
  change SameStop (fun s' r => s'.rand = r ∧ s'.mgr.fs = s.mgr.fs) (samplePrompts (system c) fuel ctx p k s).2
    (samplePrompts (withShelf c shelf) fuel ctx p k s.rand).2 at a2
  change SameStop (fun s' r => s'.rand = r ∧ s'.mgr.fs = t.mgr.fs) (samplePrompts (system c) fuel ctx p k t).2
    (samplePrompts (withShelf c shelf) fuel ctx p k t.rand).2 at b2
  rw [h4] at a1 a2
  rw [h1] at a2
  refine ⟨a1.trans b1.symm, ?_⟩
  generalize (samplePrompts (system c) fuel ctx p k s).2 = x at a2 ⊢
  generalize (samplePrompts (system c) fuel ctx p k t).2 = y at b2 ⊢
  generalize (samplePrompts (withShelf c shelf) fuel ctx p k t.rand).2 = z at a2 b2
  unfold SameEnd
  cases x <;> cases z <;> simp only [SameStop] at a2 <;> try exact a2.elim
  all_goals cases y <;> simp only [SameStop] at b2 ⊢ <;> try exact b2.elim
  · exact ⟨a2.1.trans b2.1.symm, a2.2.1.trans b2.2.1.symm, a2.2.2.trans b2.2.2.symm⟩
  · exact ⟨a2.1.trans b2.1.symm, a2.2.trans b2.2.symm⟩
  · exact ⟨a2.1.trans b2.1.symm, a2.2.1.trans b2.2.1.symm, a2.2.2.trans b2.2.2.symm⟩

/-- No directory lists a name twice. -/
def UniqueNames (fs : FNode) : Prop :=
  ∀ p es, fs.at p = some (.dir es) → (es.map (·.1)).Nodup

/-- Whatever is there and is not a directory can be opened and read. -/
def Openable (fs : FNode) : Prop := ∀ p, fs.at p ≠ some .broken

private theorem at_append (fs d : FNode) (p q : Path) (h : fs.at p = some d) : fs.at (p ++ q) = d.at q := by
  induction p generalizing fs with
  | nil => simp only [FTree.at, Option.some.injEq] at h; subst h; rfl
  | cons n p ih =>
    cases fs with
    | file c => simp [FTree.at] at h
    | broken => simp [FTree.at] at h
    | dir es =>
      simp only [FTree.at, List.cons_append] at h ⊢
      cases he : FTree.entry es n with
      | none => rw [he] at h; simp at h
      | some x => rw [he] at h; exact ih x h

private theorem entry_of_mem {es : List (Str × FNode)} {n : Str} {x : FNode} (hd : (es.map (·.1)).Nodup)
    (h : (n, x) ∈ es) : FTree.entry es n = some x := by
  induction es with
  | nil => simp at h
  | cons q es ih =>
    obtain ⟨m, y⟩ := q
    simp only [List.map_cons, List.nodup_cons] at hd
    rcases List.mem_cons.1 h with e | h
    · simp only [Prod.mk.injEq] at e
      obtain ⟨rfl, rfl⟩ := e
      simp [FTree.entry]
    · have hne : m ≠ n := by rintro rfl; exact hd.1 (List.mem_map.2 ⟨_, h, rfl⟩)
      simp only [FTree.entry, if_neg hne]
      exact ih hd.2 h

private theorem visible_at {fs d : FNode} (hu : UniqueNames fs) {rel : Path} {c : Option Str} (hv : Visible d rel c) :
    ∀ root, fs.at root = some d →
      fs.at (root ++ rel) = some (c.elim .broken .file) := by
  induction hv with
  | @file es n c hm =>
    intro root h
    rw [at_append fs _ _ _ h]
    simp only [FTree.at, entry_of_mem (hu _ _ h) hm, Option.elim]
  | @broken es n hm =>
    intro root h
    rw [at_append fs _ _ _ h]
    simp only [FTree.at, entry_of_mem (hu _ _ h) hm, Option.elim]
  | @sub es n x rel c hm _ _ ih =>
    intro root h
    have h1 : fs.at (root ++ [n]) = some x := by
      rw [at_append fs _ _ _ h]
      simp only [FTree.at, entry_of_mem (hu _ _ h) hm]
    have := ih _ h1
    rwa [List.append_assoc, List.singleton_append] at this

private theorem mem_set {α : Type} {d : Dict α} {k : Str} {v : α} {q : Str × α} (h : q ∈ d.set k v) :
    q ∈ d ∨ q = (k, v) := by
  induction d with
  | nil => simp [Dict.set] at h; exact .inr h
  | cons e d ih =>
    simp only [Dict.set] at h
    split at h
    · rcases List.mem_cons.1 h with h | h
      · exact .inr h
      · exact .inl (List.mem_cons_of_mem _ h)
    · rcases List.mem_cons.1 h with h | h
      · exact .inl (by simp [h])
      · rcases ih h with h | h
        · exact .inl (List.mem_cons_of_mem _ h)
        · exact .inr h

private theorem mem_update {α : Type} {pairs : List (Str × α)} {d : Dict α} {q : Str × α} (h : q ∈ d.update pairs) :
    q ∈ d ∨ q ∈ pairs := by
  induction pairs generalizing d with
  | nil => exact .inl h
  | cons e pairs ih =>
    rcases ih (d := d.set e.1 e.2) h with h | h
    · rcases mem_set h with h | h
      · exact .inl h
      · exact .inr (by simp [h])
    · exact .inr (List.mem_cons_of_mem _ h)

private theorem dirMap_readable {lib : Lib} {fs : FNode} {root : Path} (hu : UniqueNames fs) (ho : Openable fs) {n : Str} {p : Path}
    (h : (n, RawColl.file p) ∈ dirMap lib fs root) : ∃ c, fs.read p = some c := by
  unfold dirMap at h
  cases hd : fs.at root with
  | none => rw [hd] at h; simp at h
  | some d =>
    rw [hd] at h
    dsimp only at h
    have key : ∀ (files : List (Path × Option Str)) (m : Dict RawColl),
        (n, RawColl.file p) ∈ files.foldl (fun m f => m.update (fileCollections lib root f.1 f.2)) m →
        (n, RawColl.file p) ∈ m ∨ ∃ f ∈ files, (n, RawColl.file p) ∈ fileCollections lib root f.1 f.2 := by
      intro files
      induction files with
      | nil => intro m h; exact .inl h
      | cons f files ih =>
        intro m h
        rw [List.foldl_cons] at h
        rcases ih _ h with h | ⟨f', hf', h⟩
        · rcases mem_update h with h | h
          · exact .inl h
          · exact .inr ⟨f, by simp, h⟩
        · exact .inr ⟨f', by simp [hf'], h⟩
    rcases key _ _ h with h | ⟨f, hf, h⟩
    · simp at h
    · have hv := (walk_finds d f.1 f.2).1 hf
      have hat := visible_at hu hv root hd
      unfold fileCollections at h
      dsimp only at h
      split at h
      · simp only [List.mem_singleton, Prod.mk.injEq, RawColl.file.injEq] at h
        rw [h.2]
        cases hc : f.2 with
        | none => rw [hc] at hat; exact absurd hat (ho _)
        | some t => rw [hc] at hat; exact ⟨t, by unfold FTree.read; rw [hat]; rfl⟩
      · split at h
        · split at h
          · simp at h
          · simp only [List.mem_map, Prod.mk.injEq] at h
            obtain ⟨q, -, -, h⟩ := h
            cases h
        · simp at h

private theorem roots_readable {lib : Lib} {fs : FNode} {roots : RootMap} (hu : UniqueNames fs) (ho : Openable fs) {n : Str} {p : Path}
    (h : (n, RawColl.file p) ∈ rootMapColls lib fs roots) : ∃ c, fs.read p = some c := by
  unfold rootMapColls at h
  rcases mem_update h with h | h
  · simp at h
  · unfold rootMapPairs at h
    simp only [List.mem_flatMap, List.mem_map, Prod.mk.injEq] at h
    obtain ⟨r, -, item, -, q, hq, -, e⟩ := h
    cases item with
    | path p' =>
      simp only [rootItemMap] at hq
      split at hq
      · obtain ⟨k, v⟩ := q
        obtain rfl : v = _ := e
        exact dirMap_readable hu ho hq
      · simp at hq
    | dict d =>
      simp only [rootItemMap, List.mem_map] at hq
      obtain ⟨x, -, rfl⟩ := hq
      cases e

/-- **C63.**  If no directory lists a name twice and all files can be opened, every wildcard stands for some (possibly no) values: a lookup
never fails. -/
theorem wildcards_readable (cfg : MgrCfg R) (fs : FNode) (sort dedup : Bool) (hu : UniqueNames fs) (ho : Openable fs)
    (shelf : Str → Except Err (List Item)) (hs : OnShelf cfg fs sort dedup shelf) (wc : Str) :
    ∃ found out, Finds cfg fs wc found ∧ Arranged sort dedup found out ∧ shelf wc = .ok out := by
  have hval : ∀ cs : List RawColl, (∀ p, RawColl.file p ∈ cs → ∃ c, fs.read p = some c) →
      ∃ vs, valuesOf fs cs = some vs := by
    intro cs
    induction cs with
    | nil => intro _; exact ⟨[], rfl⟩
    | cons c cs ih =>
      intro h
      obtain ⟨vs, hv⟩ := ih fun p hp => h p (List.mem_cons_of_mem _ hp)
      cases c with
      | items l => exact ⟨l ++ vs, by simp [valuesOf, collVal, hv]⟩
      | file p =>
        obtain ⟨t, ht⟩ := h p (by simp)
        exact ⟨_, by simp only [valuesOf, collVal, ht, Option.map_some, hv]; rfl⟩
  have hm : ∀ w, ∃ vs, valuesOf fs (pureMatch cfg fs w) = some vs := by
    intro w
    refine hval _ fun p hp => ?_
    unfold pureMatch at hp
    split at hp
    · simp at hp
    · simp only [List.mem_map, List.mem_filter] at hp
      obtain ⟨⟨k, v⟩, ⟨hq, -⟩, e⟩ := hp
      obtain rfl : v = _ := e
      exact roots_readable hu ho hq
  have hl : ∃ found, pureLookup cfg fs wc = some found := by
    unfold pureLookup
    obtain ⟨v, hv⟩ := hm wc
    rw [hv]
    dsimp only
    split
    · exact hm _
    · exact ⟨v, rfl⟩
  obtain ⟨found, hf⟩ := hl
  have hf := (pureLookup_finds cfg fs wc found).1 hf
  obtain ⟨out, e, ha⟩ := (hs wc).1 found hf
  exact ⟨found, out, hf, ha, e⟩

/-! ### An example -/

/-- Two text files; `b` refers to `d/a`. -/
def sysFs : FNode :=
  .dir [(c!"w", .dir [(c!"b.txt", .file c!"red\n{dark|light} __a__\n# no\nred"),
    (c!"d", .dir [(c!"a.txt", .file c!"blue\ngreen")])])]

/-- How to see it: directory by directory. -/
theorem uniqueNames_dir {es : List (Str × FNode)} (h : (es.map (·.1)).Nodup) (hc : ∀ q ∈ es, UniqueNames q.2) :
    UniqueNames (.dir es) := by
  intro p es' hp
  cases p with
  | nil => simp only [FTree.at, Option.some.injEq, FTree.dir.injEq] at hp; subst hp; exact h
  | cons n p =>
    simp only [FTree.at] at hp
    cases he : FTree.entry es n with
    | none => rw [he] at hp; simp at hp
    | some x =>
      rw [he] at hp
      have hm : (n, x) ∈ es := by
        clear hp h hc
        induction es with
        | nil => simp [FTree.entry] at he
        | cons q es ih =>
          obtain ⟨m, y⟩ := q
          simp only [FTree.entry] at he
          split at he
          · rename_i hmn; subst hmn; simp only [Option.some.injEq] at he; subst he; simp
          · exact List.mem_cons_of_mem _ (ih he)
      exact hc _ hm p es' hp

theorem uniqueNames_file (c : Str) : UniqueNames (.file c) := by
  intro p es h
  cases p <;> simp [FTree.at] at h

theorem openable_dir {es : List (Str × FNode)} (hc : ∀ q ∈ es, Openable q.2) : Openable (.dir es) := by
  intro p hp
  cases p with
  | nil => simp [FTree.at] at hp
  | cons n p =>
    simp only [FTree.at] at hp
    cases he : FTree.entry es n with
    | none => rw [he] at hp; simp at hp
    | some x =>
      rw [he] at hp
      have hm : (n, x) ∈ es := by
        clear hp hc
        induction es with
        | nil => simp [FTree.entry] at he
        | cons q es ih =>
          obtain ⟨m, y⟩ := q
          simp only [FTree.entry] at he
          split at he
          · rename_i hmn; subst hmn; simp only [Option.some.injEq] at he; subst he; simp
          · exact List.mem_cons_of_mem _ (ih he)
      exact hc _ hm p hp

theorem openable_file (c : Str) : Openable (.file c) := by
  intro p h
  cases p <;> simp [FTree.at] at h

example : Openable sysFs := by
  have f := openable_file
  refine openable_dir ?_
  simp only [List.mem_cons, List.not_mem_nil, or_false]
  rintro q rfl
  refine openable_dir ?_
  simp only [List.mem_cons, List.not_mem_nil, or_false]
  rintro q (rfl | rfl)
  · exact f _
  refine openable_dir ?_
  simp only [List.mem_cons, List.not_mem_nil, or_false]
  rintro q rfl
  exact f _

example : UniqueNames sysFs := by
  have f := uniqueNames_file
  refine uniqueNames_dir (by decide) ?_
  simp only [List.mem_cons, List.not_mem_nil, or_false]
  rintro q rfl
  refine uniqueNames_dir (by decide) ?_
  simp only [List.mem_cons, List.not_mem_nil, or_false]
  rintro q (rfl | rfl)
  · exact f _
  refine uniqueNames_dir (by decide) ?_
  simp only [List.mem_cons, List.not_mem_nil, or_false]
  rintro q rfl
  exact f _

/-- A manager for the directory, a random generator that counts. -/
def sysCfg : SysCfg Nat Nat :=
  ⟨⟨demoLib, c!"__", [([], [.path [c!"w"]])], Demo.rng⟩, .default fun _ => false, Demo.rng, false, none⟩

/-- A history: a lookup, a change of settings, a prompt of another kind with the same manager. -/
def sysOps : List (SysOp Nat Nat) :=
  [.mgr (.get c!"b"), .mgr (.sort false), .sample (.default fun _ => false) true none (Demo.ctx .random)
    (.inl c!"__*__, __d/a__") 30 3, .mgr .names, .rand 5]

example : ∀ op ∈ sysOps, Quiet op := by simp [sysOps, Quiet, ReadOnly, NoShuffle]

/-- The manager was used. -/
example : (runSys sysCfg sysOps ⟨newMgr sysFs 0, 0⟩).mgr.cache.map (·.1) = [c!"*", c!"d/a"] ∧
    (runSys sysCfg sysOps ⟨newMgr sysFs 0, 0⟩).rand = 5 := by decide +kernel

example : (samplePrompts (system sysCfg) 40 (Demo.ctx .comb) (.inl c!"{a|__b__}!") 9
    (runSys sysCfg sysOps ⟨newMgr sysFs 0, 0⟩)).1 =
    [c!"a!", c!"red!", c!"dark blue!", c!"dark green!", c!"light blue!", c!"light green!"] := by decide +kernel

/-! ## C64 -/

/-- **C64.**  From text and files to prompts: every prompt sampled from the text of an unambiguous template can be
derived from what the template stands for, where the wildcards stand for what the files say. -/
theorem prompts_from_files (c : SysCfg R S) (M : Marks) (al : Char → Bool)
    (hM : M.usable al = true) (hc : c.parser = .of M al)
    (past : Sys R S) (ops : List (SysOp R S)) (hoff : past.mgr.shuffle = false) (hq : ∀ op ∈ ops, Quiet op) :
    let s := runSys c ops { past with mgr := Mgr.clearCache past.mgr }
    ∀ shelf, OnShelf c.mgr s.mgr.fs s.mgr.sort s.mgr.dedup shelf →
    ∀ (ps : List Piece), Spec.ok .top ps M = true → '\t' ∉ source ps M →
    ∀ (fuel : Nat) (ctx : Ctx) (k : Nat),
      ∀ prompt ∈ (samplePrompts (system c) fuel ctx (.inl (source ps M)) k s).1,
        ∃ u, Lang (withShelf c shelf) ctx.vars (meaning ps) u ∧
          prompt = if c.ignoreWs then squashWhitespace u else u := by
  intro s shelf hs ps hok ht fuel ctx k
  rw [(files_decide_prompts c past ops hoff hq shelf hs fuel ctx _ k).1]
  intro prompt hm
  have := sampling_sound (withShelf c shelf) fuel ctx _ k _ prompt hm
  cases this with
  | text hne hp hl =>
    change parse c.parser _ = _ at hp
    rw [hc, parse_source_marks M al hM ps hok ht] at hp
    obtain rfl := Except.ok.inj hp
    exact ⟨_, hl, rfl⟩

/-! ## C65 -/

/-- The relation between worlds under which a seed decides everything. -/
private def Rel2 (cfg : MgrCfg R) (fs : FNode) (sort dedup : Bool) (s t : Sys R S) : Prop :=
  Sound cfg fs sort dedup s.mgr ∧ Sound cfg fs sort dedup t.mgr ∧ s.rand = t.rand

private theorem system_seeded (c : SysCfg R S) (seed : Int → S → S) (hseed : ∀ n a b, seed n a = seed n b)
    (fs : FNode) (sort dedup : Bool) :
    SeededWorld (system c) (Sys.reseed seed) (shelfOf c.mgr fs sort dedup) (Rel2 c.mgr fs sort dedup) where
  symm := fun _ _ h => ⟨h.2.1, h.1, h.2.2.symm⟩
  trans := fun _ _ _ h h' => ⟨h.1, h'.2.1, h.2.2.trans h'.2.2⟩
  draws := {
    arith := rfl
    below := by
      rintro n ⟨m, r⟩ ⟨m', r'⟩ ⟨h1, h2, h3⟩
      obtain rfl : r = r' := h3
      exact ⟨rfl, h1, h2, rfl⟩
    unit := by
      rintro ⟨m, r⟩ ⟨m', r'⟩ ⟨h1, h2, h3⟩
      obtain rfl : r = r' := h3
      exact ⟨rfl, h1, h2, rfl⟩ }
  answers := by
    intro wc items w e h
    obtain ⟨m', hm, hr, e'⟩ := get_shelf c.mgr fs sort dedup w.mgr wc h.1
    rw [e] at e'
    refine ⟨{ w with mgr := m' }, ?_, h.1, hm, rfl⟩
    show Sys.onMgr _ w = _
    unfold Sys.onMgr
    rw [e']
  fails := by
    intro wc er w e h
    obtain ⟨m', hm, hr, e'⟩ := get_shelf c.mgr fs sort dedup w.mgr wc h.1
    rw [e] at e'
    refine ⟨{ w with mgr := m' }, ?_, h.1, hm, rfl⟩
    show Sys.onMgr _ w = _
    unfold Sys.onMgr
    rw [e']
  reseeds := fun n w w' h h' => ⟨h.1, h'.1, hseed n _ _⟩

/-- **C65.**  Seeds reproduce prompts in another process: take two managers with the same configuration, files and
settings, and any histories; sample the same text, a template that remembers nothing; then equal seeds give equal
prompts, at whatever place in the two lists of seeds. -/
theorem seeds_reproduce (c : SysCfg R S) (seed : Int → S → S) (hseed : ∀ n a b, seed n a = seed n b)
    (past past' : Sys R S) (ops ops' : List (SysOp R S))
    (hoff : past.mgr.shuffle = false) (hoff' : past'.mgr.shuffle = false) (hq : ∀ op ∈ ops, Quiet op)
    (hq' : ∀ op ∈ ops', Quiet op) :
    let s := runSys c ops { past with mgr := Mgr.clearCache past.mgr }
    let t := runSys c ops' { past' with mgr := Mgr.clearCache past'.mgr }
    s.mgr.fs = t.mgr.fs → s.mgr.sort = t.mgr.sort → s.mgr.dedup = t.mgr.dedup →
    ∀ shelf, OnShelf c.mgr s.mgr.fs s.mgr.sort s.mgr.dedup shelf →
    ∀ (template : Str) (cmd : Cmd), parse c.parser template = .ok cmd → Memoryless (system c) shelf [] cmd →
    ∀ (fuel fuel' : Nat) (seeds seeds' : List Int) (s' t' : Sys R S) (ps ps' : List Str),
      randomGenerate (system c) fuel (Sys.reseed seed) template seeds.length (.list seeds) s = .ok ps s' →
      randomGenerate (system c) fuel' (Sys.reseed seed) template seeds'.length (.list seeds') t = .ok ps' t' →
      ∀ (i j : Nat) (n : Int), seeds[i]? = some n → seeds'[j]? = some n → ps[i]? = ps'[j]? := by
  intro s t h1 h2 h3 shelf hs template cmd hp hm fuel fuel' seeds seeds' s' t' ps ps' e e' i j n hi hj
  obtain rfl := shelf_eq hs
  have is : MgrInv (· = false) c.mgr s.mgr := runSys_inv c ops _ (mgr_clear_inv _ c.mgr past.mgr hoff) hq
  have it : MgrInv (· = false) c.mgr t.mgr := runSys_inv c ops' _ (mgr_clear_inv _ c.mgr past'.mgr hoff') hq'
  have ss : Sound c.mgr s.mgr.fs s.mgr.sort s.mgr.dedup s.mgr := ⟨is, rfl, rfl, rfl⟩
  have st : Sound c.mgr s.mgr.fs s.mgr.sort s.mgr.dedup t.mgr := ⟨it, h1.symm, h2.symm, h3.symm⟩
  exact equal_seeds_equal_prompts (system c) (Sys.reseed seed) _ _
    (system_seeded c seed hseed s.mgr.fs s.mgr.sort s.mgr.dedup) template cmd hp hm fuel fuel' seeds seeds' s s' t t'
    ⟨ss, ss, rfl⟩ ⟨st, st, rfl⟩ ps ps' e e' i j n hi hj

/-- The random generator's state is the seed. -/
def sysSeed (n : Int) (_ : Nat) : Nat := n.toNat

/-- Non-vacuity: a template that remembers nothing. -/
example (shelf : Str → Except Err (List Item)) (h : OnShelf sysCfg.mgr sysFs true true shelf) :
    parse sysCfg.parser c!"{x|y} __d/a__" = .ok (.seq [Demo.oneOf [c!"x", c!"y"], .lit c!" " none,
      .wild (.inl c!"d/a") none []] [] none) ∧
    Memoryless (system sysCfg) shelf [] (.seq [Demo.oneOf [c!"x", c!"y"], .lit c!" " none,
      .wild (.inl c!"d/a") none []] [] none) := by
  refine ⟨by decide +kernel, ?_⟩
  obtain rfl := shelf_eq h
  refine .seq (by simp) ?_ ?_
  · intro c hc
    simp only [List.mem_cons, List.not_mem_nil, or_false] at hc
    rcases hc with rfl | rfl | rfl <;> simp [Lazy, Demo.oneOf]
  · intro c hc hn
    simp only [List.mem_cons, List.not_mem_nil, or_false] at hc
    rcases hc with rfl | rfl | rfl
    · exact .choice (by simp) (by simp)
    · exact .lit
    · refine .wild (by simp) (PlainPath.text (t := c!"d/a") (m := none) (by simp) (by decide +kernel)) ?_
      intro items hi
      have : shelfOf sysCfg.mgr sysFs true true c!"d/a" = .ok [⟨c!"blue", none⟩, ⟨c!"green", none⟩] := by
        decide +kernel
      change shelfOf sysCfg.mgr sysFs true true c!"d/a" = _ at hi
      rw [this] at hi
      obtain rfl := Except.ok.inj hi
      decide +kernel

/-- The prompts a call returned. -/
def returned {W : Type} : Res W (List Str) → List Str
  | .ok ps _ => ps
  | _ => []

/-- A used manager with a used random generator, and a new one with the same settings: the seeds 4 and 7 in other
places. -/
example :
    returned (randomGenerate (system sysCfg) 40 (Sys.reseed sysSeed) c!"{x|y} __d/a__" 3 (.list [4, 7, 4])
      (runSys sysCfg sysOps ⟨newMgr sysFs 0, 0⟩)) = [c!"y blue", c!"x green", c!"y blue"] ∧
    returned (randomGenerate (system sysCfg) 40 (Sys.reseed sysSeed) c!"{x|y} __d/a__" 2 (.list [7, 4])
      (runSys sysCfg [.mgr (.sort false)] ⟨newMgr sysFs 0, 0⟩)) = [c!"x green", c!"y blue"] := by
  decide +kernel

end Verif.Props
