import Verif.Proofs.Manager
import Verif.Props.Names
import Verif.Props.Tree
import Verif.Props.Text
/-!
# Properties of the wildcard manager (C27, C28, C29, C31, C38)

A history is any list of `MgrOp`s.  Exceptions are caught by the caller, who goes on with the next
operation.
-/

namespace Verif.Props
open Verif Verif.Spec

variable {R : Type}

/-! ## Histories -/

/-- What a user of a manager can do, including what happens to its files from outside. -/
inductive MgrOp where
  /-- `manager.get_values(w)` -/
  | get (w : Str)
  /-- `manager.clear_cache()` -/
  | clear
  /-- `manager.sort_wildcards = b` -/
  | sort (b : Bool)
  /-- `manager.dedup_wildcards = b` -/
  | dedup (b : Bool)
  /-- `manager.shuffle_wildcards = b` -/
  | shuffle (b : Bool)
  /-- `manager.get_collection_names()` -/
  | names
  /-- `manager.get_file(n)` -/
  | getFile (n : Str)
  /-- `get_values()` of any text collection object obtained so far, also before a `clear_cache` -/
  | readObj (id : Nat)
  /-- `write_text(t)` of such an object -/
  | writeObj (id : Nat) (t : Str)
  /-- the files are changed by somebody else -/
  | edit (fs : FNode)

/-- The state after running code, whatever the outcome. -/
def after {W α : Type} (w : W) : Res W α → W
  | .ok _ w' => w'
  | .err _ w' => w'
  | .fuel => w

/-- What the caller sees. -/
def seen {W α : Type} : Res W α → Option (Except Err α)
  | .ok a _ => some (.ok a)
  | .err e _ => some (.error e)
  | .fuel => none

/-- The state after an operation. -/
def MgrOp.run (cfg : MgrCfg R) : MgrOp → Mgr R → Mgr R
  | .get w, s => after s (Mgr.getValues cfg w s)
  | .clear, s => Mgr.clearCache s
  | .sort b, s => Mgr.setSort b s
  | .dedup b, s => Mgr.setDedup b s
  | .shuffle b, s => Mgr.setShuffle b s
  | .names, s => after s (Mgr.collectionNames cfg s)
  | .getFile n, s => after s (Mgr.getFile cfg n s)
  | .readObj id, s => after s (Mgr.textGetValues id s)
  | .writeObj id t, s => after s (Mgr.textWrite id t s)
  | .edit fs, s => { s with fs := fs }

/-- The state after a history. -/
def runOps (cfg : MgrCfg R) (ops : List MgrOp) (s : Mgr R) : Mgr R :=
  ops.foldl (fun s op => op.run cfg s) s

/-- Operations that leave the files alone. -/
def ReadOnly : MgrOp → Prop
  | .writeObj _ _ => False
  | .edit _ => False
  | _ => True

/-- Operations that do not turn shuffling on. -/
def NoShuffle : MgrOp → Prop
  | .shuffle true => False
  | _ => True

/-- A new manager with the settings of `s` on the files of `s`. -/
def brandNew (s : Mgr R) : Mgr R :=
  { newMgr s.fs s.rand with sort := s.sort, dedup := s.dedup, shuffle := s.shuffle }

/-! ## Invariant -/

def MgrCacheOk (B : Bool → Prop) (cfg : MgrCfg R) (s : Mgr R) : Prop :=
  ∀ w v, s.cache.get w = some v →
    ∃ u b, pureLookup cfg s.fs w = some u ∧ B b ∧ v = applyOptions s.sort s.dedup b u

structure MgrInv (B : Bool → Prop) (cfg : MgrCfg R) (s : Mgr R) : Prop where
  tree : TreeOk cfg s
  cache : MgrCacheOk B cfg s
  now : B s.shuffle

theorem MgrInv.ext {B : Bool → Prop} {cfg : MgrCfg R} {s s' : Mgr R} (h : MgrInv B cfg s)
    (x : Ext cfg s s') : MgrInv B cfg s' := by
  refine ⟨x.tree h.tree, ?_, by rw [x.shuffle]; exact h.now⟩
  intro w v hv
  rw [x.cache] at hv
  rw [x.fs, x.sort, x.dedup]
  exact h.cache w v hv

theorem mgr_raw_gives (B : Bool → Prop) (cfg : MgrCfg R) (s : Mgr R) (w : Str) (h : MgrInv B cfg s) :
    (pureLookup cfg s.fs w = none ∧ ∃ s', Mgr.getValuesRaw cfg w s = .err .os s' ∧ Ext cfg s s') ∨
    ∃ u b s', pureLookup cfg s.fs w = some u ∧ B b ∧
      Mgr.getValuesRaw cfg w s = .ok (applyOptions s.sort s.dedup b u) s' ∧ MgrInv B cfg s' ∧
      s'.fs = s.fs ∧ s'.sort = s.sort ∧ s'.dedup = s.dedup ∧ s'.shuffle = s.shuffle ∧ s'.rand = s.rand := by
  unfold Mgr.getValuesRaw
  cases hc : s.cache.get w with
  | some v =>
    obtain ⟨u, b, h1, h2, rfl⟩ := h.cache w v hc
    exact .inr ⟨u, b, s, h1, h2, rfl, h, rfl, rfl, rfl, rfl, rfl⟩
  | none =>
    have g := lookup_gives cfg s w h.tree
    cases hl : pureLookup cfg s.fs w with
    | none =>
      rw [hl] at g
      obtain ⟨s', e, x⟩ := g
      refine .inl ⟨rfl, s', ?_, x⟩
      show M.bind (Mgr.lookup cfg w) _ s = _
      simp only [M.bind, e]
    | some u =>
      rw [hl] at g
      obtain ⟨s', e, x⟩ := g
      let cache : Dict (List Item) := if s'.cache.length > 100 then [] else s'.cache
      refine .inr ⟨u, s.shuffle,
        { s' with cache := cache.set w (applyOptions s.sort s.dedup s.shuffle u) }, rfl, h.now, ?_, ?_,
        x.fs, x.sort, x.dedup, x.shuffle, x.rand⟩
      · show M.bind (Mgr.lookup cfg w) _ s = _
        simp only [M.bind, e]; rfl
      · have hi := h.ext x
        refine ⟨hi.tree, ?_, hi.now⟩
        intro w' v' hv'
        simp only at hv'
        rw [Dict.get_set] at hv'
        split at hv'
        · rename_i hw
          subst hw
          simp only [Option.some.injEq] at hv'
          subst hv'
          exact ⟨u, s.shuffle, by simp only [x.fs]; exact hl, h.now, by simp only [x.sort, x.dedup]⟩
        · have hg : s'.cache.get w' = some v' := by
            by_cases hlen : s'.cache.length > 100
            · simp only [cache, if_pos hlen] at hv'; simp [Dict.get] at hv'
            · simp only [cache, if_neg hlen] at hv'; exact hv'
          exact hi.cache w' v' hg

theorem mgr_get_inv (B : Bool → Prop) (cfg : MgrCfg R) (s : Mgr R) (w : Str) (h : MgrInv B cfg s) :
    MgrInv B cfg (after s (Mgr.getValues cfg w s)) ∧ (after s (Mgr.getValues cfg w s)).fs = s.fs ∧
      (after s (Mgr.getValues cfg w s)).shuffle = s.shuffle := by
  unfold Mgr.getValues
  rcases mgr_raw_gives B cfg s w h with ⟨-, s', e, x⟩ | ⟨u, b, s', -, -, e, hi, h1, -, -, h4, -⟩
  · simp only [e]; exact ⟨h.ext x, x.fs, x.shuffle⟩
  · simp only [e]
    by_cases hs : s'.shuffle = true
    · simp only [if_pos hs]
      exact ⟨⟨hi.tree, hi.cache, hi.now⟩, h1, h4⟩
    · simp only [if_neg hs]
      exact ⟨hi, h1, h4⟩

theorem mgr_clear_inv (B : Bool → Prop) (cfg : MgrCfg R) (s : Mgr R) (h : B s.shuffle) :
    MgrInv B cfg (Mgr.clearCache s) :=
  ⟨by intro t ht; simp [Mgr.clearCache] at ht, by intro w v hv; simp [Mgr.clearCache, Dict.get] at hv, h⟩

theorem mgr_op_inv (B : Bool → Prop) (cfg : MgrCfg R) (op : MgrOp) (s : Mgr R) (h : MgrInv B cfg s)
    (hr : ReadOnly op) (hb : ∀ b, op = .shuffle b → B b) : MgrInv B cfg (op.run cfg s) := by
  cases op with
  | get w => exact (mgr_get_inv B cfg s w h).1
  | clear => exact mgr_clear_inv B cfg s h.now
  | sort b => exact mgr_clear_inv B cfg _ h.now
  | dedup b => exact mgr_clear_inv B cfg _ h.now
  | shuffle b => exact ⟨h.tree, h.cache, hb b rfl⟩
  | names =>
    obtain ⟨t, s', e, x, -⟩ := getTree_gives cfg s
    have : Mgr.collectionNames cfg s = .ok (t.map.map (·.1)) s' := by
      show M.bind (Mgr.getTree cfg) _ s = _
      simp only [M.bind, e]; rfl
    simp only [MgrOp.run, this]; exact h.ext x
  | getFile n =>
    simp only [MgrOp.run, Mgr.getFile]
    cases cleanWildcard cfg.wrap n with
    | none => exact h
    | some m =>
      obtain ⟨t, s', e, x, -⟩ := getTree_gives cfg s
      have : MgrInv B cfg (after s (M.bind (Mgr.getTree cfg) (fun t => match t.map.get m with
          | none => M.raise (.key m)
          | some c => pure c) s)) := by
        simp only [M.bind, e]
        cases t.map.get m with
        | none => exact h.ext x
        | some c => exact h.ext x
      exact this
  | readObj id =>
    rcases textGet_ext cfg s id with ⟨v, s', e, x⟩ | ⟨e', s', e, x⟩ <;>
      simp only [MgrOp.run, e] <;> exact h.ext x
  | writeObj id t => exact hr.elim
  | edit fs => exact hr.elim

theorem mgr_ops_inv (B : Bool → Prop) (cfg : MgrCfg R) (ops : List MgrOp) : ∀ (s : Mgr R), MgrInv B cfg s →
    (∀ op ∈ ops, ReadOnly op) → (∀ b, MgrOp.shuffle b ∈ ops → B b) → MgrInv B cfg (runOps cfg ops s) := by
  induction ops with
  | nil => intro s h _ _; exact h
  | cons op ops ih =>
    intro s h hr hb
    exact ih _ (mgr_op_inv B cfg op s h (hr op (by simp)) (fun b e => hb b (by simp [e])))
      (fun o ho => hr o (by simp [ho])) (fun b hm => hb b (by simp [hm]))

theorem mgr_brandNew_inv (B : Bool → Prop) (cfg : MgrCfg R) (s : Mgr R) (h : B s.shuffle) :
    MgrInv B cfg (brandNew s) :=
  ⟨by intro t ht; simp [brandNew, newMgr] at ht,
    by intro w v hv; simp [brandNew, newMgr, Dict.get] at hv, h⟩

/-- What `get_values` shows when shuffling is off and never was on. -/
theorem mgr_get_seen (cfg : MgrCfg R) (s : Mgr R) (w : Str) (h : MgrInv (· = false) cfg s) :
    seen (Mgr.getValues cfg w s) = some (match pureLookup cfg s.fs w with
      | none => .error .os
      | some u => .ok (applyOptions s.sort s.dedup false u)) := by
  unfold Mgr.getValues
  rcases mgr_raw_gives _ cfg s w h with ⟨hp, s', e, x⟩ | ⟨u, b, s', hp, rfl, e, hi, -⟩
  · simp only [e, hp]; rfl
  · simp only [e, hp]
    rw [if_neg (by rw [hi.now]; simp)]
    rfl

/-- What `get_values` shows in general, up to order. -/
theorem mgr_get_seen_perm (cfg : MgrCfg R) (s : Mgr R) (w : Str) (h : MgrInv (fun _ => True) cfg s) :
    (pureLookup cfg s.fs w = none ∧ seen (Mgr.getValues cfg w s) = some (.error .os)) ∨
    ∃ u v, pureLookup cfg s.fs w = some u ∧ seen (Mgr.getValues cfg w s) = some (.ok v) ∧
      v.Perm (applyOptions s.sort s.dedup false u) := by
  have hopt : ∀ (so de b : Bool) (u : List Item), (applyOptions so de b u).Perm (applyOptions so de false u) := by
    intro so de b u
    unfold applyOptions
    cases so <;> cases b <;> simp [(sortItems_perm _).symm]
  unfold Mgr.getValues
  rcases mgr_raw_gives _ cfg s w h with ⟨hp, s', e, x⟩ | ⟨u, b, s', hp, -, e, hi, -⟩
  · exact .inl ⟨hp, by simp only [e]; rfl⟩
  · right
    by_cases hs : s'.shuffle = true
    · refine ⟨u, _, hp, ?_, (shuffle_perm cfg.rng (applyOptions s.sort s.dedup b u) s'.rand).trans (hopt _ _ _ _)⟩
      simp only [e, if_pos hs]; rfl
    · refine ⟨u, _, hp, ?_, hopt s.sort s.dedup b u⟩
      simp only [e, if_neg hs]; rfl

/-! ## C27 The cache is transparent -/

/-- C27: let a manager have any past whatsoever, then clear its cache, and then do anything that
neither changes the files nor turns shuffling on. Whatever `get_values` then returns or raises is
what a brand-new manager with the same settings returns or raises. -/
theorem cache_transparent (cfg : MgrCfg R) (past : Mgr R) (ops : List MgrOp) (w : Str)
    (hoff : past.shuffle = false) (hr : ∀ op ∈ ops, ReadOnly op ∧ NoShuffle op) :
    let s := runOps cfg ops (Mgr.clearCache past)
    seen (Mgr.getValues cfg w s) = seen (Mgr.getValues cfg w (brandNew s)) := by
  intro s
  have hi : MgrInv (· = false) cfg s := by
    refine mgr_ops_inv _ cfg ops _ (mgr_clear_inv _ cfg past hoff) (fun o ho => (hr o ho).1) ?_
    intro b hb
    have := (hr _ hb).2
    cases b with
    | false => rfl
    | true => exact this.elim
  rw [mgr_get_seen cfg s w hi, mgr_get_seen cfg (brandNew s) w (mgr_brandNew_inv _ cfg s hi.now)]
  rfl

/-- C27: the same for a manager that has just been made. -/
theorem cache_transparent_new (cfg : MgrCfg R) (fs : FNode) (rand : R) (ops : List MgrOp) (w : Str)
    (hr : ∀ op ∈ ops, ReadOnly op ∧ NoShuffle op) :
    let s := runOps cfg ops (newMgr fs rand)
    seen (Mgr.getValues cfg w s) = seen (Mgr.getValues cfg w (brandNew s)) :=
  cache_transparent cfg (newMgr fs rand) ops w rfl hr

/-- C27: changing `sort_wildcards` or `dedup_wildcards` is as good as clearing the cache: after any
past, one such change, and any history as above, the answer is that of a brand-new manager. -/
theorem setters_clear (cfg : MgrCfg R) (past : Mgr R) (op : MgrOp) (ops : List MgrOp) (w : Str)
    (hop : (∃ b, op = .sort b) ∨ ∃ b, op = .dedup b)
    (hoff : past.shuffle = false) (hr : ∀ op ∈ ops, ReadOnly op ∧ NoShuffle op) :
    let s := runOps cfg (op :: ops) past
    seen (Mgr.getValues cfg w s) = seen (Mgr.getValues cfg w (brandNew s)) := by
  rcases hop with ⟨b, rfl⟩ | ⟨b, rfl⟩
  · exact cache_transparent cfg { past with sort := b } ops w hoff hr
  · exact cache_transparent cfg { past with dedup := b } ops w hoff hr

/-- C27 with shuffling turned on and off at will: the values are those of a brand-new manager that
does not shuffle, in some order. -/
theorem cache_transparent_shuffled (cfg : MgrCfg R) (past : Mgr R) (ops : List MgrOp) (w : Str)
    (hr : ∀ op ∈ ops, ReadOnly op) :
    let s := runOps cfg ops (Mgr.clearCache past)
    let s₀ := { brandNew s with shuffle := false }
    (∀ e, seen (Mgr.getValues cfg w s) = some (.error e) ↔ seen (Mgr.getValues cfg w s₀) = some (.error e)) ∧
    (∀ v v₀, seen (Mgr.getValues cfg w s) = some (.ok v) → seen (Mgr.getValues cfg w s₀) = some (.ok v₀) →
      v.Perm v₀) := by
  intro s s₀
  have hi : MgrInv (fun _ => True) cfg s :=
    mgr_ops_inv _ cfg ops _ (mgr_clear_inv _ cfg past trivial) hr (fun _ _ => trivial)
  have hi0 : MgrInv (· = false) cfg s₀ := mgr_brandNew_inv _ cfg { s with shuffle := false } rfl
  have h0 := mgr_get_seen cfg s₀ w hi0
  have hp0 : pureLookup cfg s₀.fs w = pureLookup cfg s.fs w := rfl
  rw [hp0] at h0
  rcases mgr_get_seen_perm cfg s w hi with ⟨hp, h⟩ | ⟨u, v, hp, h, hperm⟩
  · rw [hp] at h0
    rw [h, h0]
    exact ⟨fun e => Iff.rfl, fun v v₀ h => by simp at h⟩
  · rw [hp] at h0
    rw [h, h0]
    refine ⟨fun e => by simp, ?_⟩
    intro v' v₀ hv hv0
    simp only [Option.some.injEq, Except.ok.injEq] at hv hv0
    subst hv hv0
    exact hperm

private def demoRng : Rng Nat := ⟨.exact, fun _ w => (0, w + 1), fun w => (⟨0, by decide⟩, w + 1)⟩

/-- A directory with two text files, one wildcard list given directly. -/
private def demoFs : FNode :=
  .dir [(c!"w", .dir [(c!"b.txt", .file c!"red\ngreen\nred"), (c!"d", .dir [(c!"a.txt", .file c!"blue")])])]

private def demoCfg : MgrCfg Nat :=
  ⟨demoLib, c!"__", [([], [.path [c!"w"], .dict [(c!"x", [⟨c!"u", some 2⟩])]])], demoRng⟩

/-- The hypotheses are met by histories with many different operations. -/
example : ∀ op ∈ [MgrOp.get c!"b", .sort false, .get c!"*", .names, .readObj 0, .getFile c!"d/a", .clear,
    .dedup false, .get c!"b", .shuffle false], ReadOnly op ∧ NoShuffle op := by
  simp [ReadOnly, NoShuffle]

example : seen (Mgr.getValues demoCfg c!"b" (runOps demoCfg [.get c!"*", .sort false, .get c!"b"]
    (newMgr demoFs 0))) = some (.ok [⟨c!"red", none⟩, ⟨c!"green", none⟩]) := by decide +kernel

/-- Without clearing the cache, a write through the manager's own collection object is not seen by
the manager: restriction to histories without writes is needed. -/
theorem write_is_not_seen :
    let s := runOps demoCfg [.get c!"d/a", .writeObj 1 c!"pink"] (newMgr demoFs 0)
    seen (Mgr.getValues demoCfg c!"d/a" s) = some (.ok [⟨c!"blue", none⟩]) ∧
    seen (Mgr.getValues demoCfg c!"d/a" (brandNew s)) = some (.ok [⟨c!"pink", none⟩]) ∧
    seen (Mgr.getValues demoCfg c!"d/a" (Mgr.clearCache s)) = some (.ok [⟨c!"pink", none⟩]) := by
  decide +kernel

/-- Turning shuffling on and off again leaves unsorted values in the cache: the restriction to
histories without shuffling is needed. -/
theorem shuffle_leaves_unsorted :
    let s := runOps demoCfg [.shuffle true, .get c!"b", .shuffle false] (newMgr demoFs 0)
    seen (Mgr.getValues demoCfg c!"b" s) = some (.ok [⟨c!"red", none⟩, ⟨c!"green", none⟩]) ∧
    seen (Mgr.getValues demoCfg c!"b" (brandNew s)) = some (.ok [⟨c!"green", none⟩, ⟨c!"red", none⟩]) := by
  decide +kernel

/-! ## C28 The cache is bounded -/

private def Bounded (s : Mgr R) : Prop := s.cache.length ≤ 101 ∧ (s.cache.map (·.1)).Nodup

private theorem set_length (d : Dict (List Item)) (k : Str) (v : List Item) :
    (d.set k v).length ≤ d.length + 1 := by
  by_cases h : k ∈ d.keys
  · have := congrArg List.length (Dict.keys_set_old d k v h)
    simp [Dict.keys] at this; omega
  · rw [Dict.set_new d k v h]; simp

/-- Code that leaves the cache alone. -/
private theorem getTree_cache (cfg : MgrCfg R) (s : Mgr R) :
    ∃ t s', Mgr.getTree cfg s = .ok t s' ∧ s'.cache = s.cache := by
  obtain ⟨t, s', e, x, -⟩ := getTree_gives cfg s
  exact ⟨t, s', e, x.cache⟩

private def KeepsCache {α : Type} (x : M (Mgr R) α) : Prop :=
  ∀ s, (∃ a s', x s = .ok a s' ∧ s'.cache = s.cache) ∨ (∃ e s', x s = .err e s' ∧ s'.cache = s.cache)

private theorem keeps_bind {α β : Type} {x : M (Mgr R) α} {f : α → M (Mgr R) β} (hx : KeepsCache x)
    (hf : ∀ a, KeepsCache (f a)) : KeepsCache (M.bind x f) := by
  intro s
  rcases hx s with ⟨a, s', e, h⟩ | ⟨er, s', e, h⟩
  · rcases hf a s' with ⟨b, s2, e2, h2⟩ | ⟨er, s2, e2, h2⟩
    · exact .inl ⟨b, s2, by simp [M.bind, e, e2], h2.trans h⟩
    · exact .inr ⟨er, s2, by simp [M.bind, e, e2], h2.trans h⟩
  · exact .inr ⟨er, s', by simp [M.bind, e], h⟩

private theorem keeps_pure {α : Type} (a : α) : KeepsCache (R := R) (M.pure a) :=
  fun s => .inl ⟨a, s, rfl, rfl⟩

private theorem keeps_tree (cfg : MgrCfg R) : KeepsCache (Mgr.getTree cfg) := by
  intro s
  obtain ⟨t, s', e, h⟩ := getTree_cache cfg s
  exact .inl ⟨t, s', e, h⟩

private theorem keeps_match (cfg : MgrCfg R) (w : Str) : KeepsCache (Mgr.matchCollections cfg w) := by
  unfold Mgr.matchCollections
  cases cleanWildcard cfg.wrap w with
  | none => exact keeps_pure _
  | some pat => exact keeps_bind (keeps_tree cfg) (fun _ => keeps_pure _)

private theorem keeps_textGet (id : Nat) : KeepsCache (R := R) (Mgr.textGetValues id) := by
  intro s
  unfold Mgr.textGetValues
  cases s.heap[id]? with
  | none => exact .inr ⟨_, s, rfl, rfl⟩
  | some o =>
    cases hc : o.cache with
    | some vs => exact .inl ⟨vs, s, by simp [hc], rfl⟩
    | none =>
      cases hr : s.fs.read o.path with
      | none => exact .inr ⟨.os, s, by simp [hc, hr], rfl⟩
      | some c =>
        exact .inl ⟨textValues c, { s with heap := s.heap.set id ⟨o.path, some (textValues c)⟩ },
          by simp [hc, hr], rfl⟩

private theorem keeps_colls (cs : List WColl) : KeepsCache (R := R) (Mgr.collsValues cs) := by
  induction cs with
  | nil => exact keeps_pure _
  | cons c cs ih =>
    refine keeps_bind ?_ (fun _ => keeps_bind ih (fun _ => keeps_pure _))
    cases c with
    | list l => exact keeps_pure _
    | text id => exact keeps_bind (keeps_textGet id) (fun _ => keeps_pure _)

private theorem keeps_lookup (cfg : MgrCfg R) (w : Str) : KeepsCache (Mgr.lookup cfg w) := by
  refine keeps_bind (keeps_match cfg w) (fun colls => keeps_bind (keeps_colls colls) (fun values => ?_))
  show KeepsCache (if _ then _ else _)
  split
  · exact keeps_bind (keeps_match cfg _) (fun cs => keeps_colls cs)
  · exact keeps_pure _

private theorem op_bounded (cfg : MgrCfg R) (op : MgrOp) (s : Mgr R) (h : Bounded s) :
    Bounded (op.run cfg s) := by
  have keep : ∀ {α : Type} (x : M (Mgr R) α), KeepsCache x → Bounded (after s (x s)) := by
    intro α x hx
    rcases hx s with ⟨a, s', e, hc⟩ | ⟨a, s', e, hc⟩ <;> simp only [e, after, Bounded, hc] <;> exact h
  cases op with
  | get w =>
    have hraw : Bounded (after s (Mgr.getValuesRaw cfg w s)) := by
      unfold Mgr.getValuesRaw
      cases hc : s.cache.get w with
      | some v => exact h
      | none =>
        rcases keeps_lookup cfg w s with ⟨a, s', e, hk⟩ | ⟨a, s', e, hk⟩
        · show Bounded (after s (M.bind (Mgr.lookup cfg w) _ s))
          simp only [M.bind, e]
          show Bounded { s' with cache := Dict.set (if s'.cache.length > 100 then ([] : Dict (List Item)) else s'.cache) w _ }
          have hn : Dict.keys (if s'.cache.length > 100 then ([] : Dict (List Item)) else s'.cache) |>.Nodup := by
            split
            · simp [Dict.keys]
            · rw [hk]; exact h.2
          refine ⟨?_, Dict.nodup_set _ _ _ hn⟩
          refine Nat.le_trans (set_length _ _ _) ?_
          split
          · simp
          · omega
        · show Bounded (after s (M.bind (Mgr.lookup cfg w) _ s))
          simp only [M.bind, e, after, Bounded, hk]; exact h
    simp only [MgrOp.run, Mgr.getValues]
    cases hr : Mgr.getValuesRaw cfg w s with
    | ok v s' =>
      rw [hr] at hraw
      simp only
      split
      · exact hraw
      · exact hraw
    | err e s' => rw [hr] at hraw; exact hraw
    | fuel => exact h
  | clear => exact ⟨by simp [MgrOp.run, Mgr.clearCache], by simp [MgrOp.run, Mgr.clearCache]⟩
  | sort b => exact ⟨by simp [MgrOp.run, Mgr.setSort, Mgr.clearCache], by simp [MgrOp.run, Mgr.setSort, Mgr.clearCache]⟩
  | dedup b =>
    exact ⟨by simp [MgrOp.run, Mgr.setDedup, Mgr.clearCache], by simp [MgrOp.run, Mgr.setDedup, Mgr.clearCache]⟩
  | shuffle b => exact h
  | names => exact keep _ (keeps_bind (keeps_tree cfg) (fun _ => keeps_pure _))
  | getFile n =>
    refine keep _ ?_
    unfold Mgr.getFile
    cases cleanWildcard cfg.wrap n with
    | none => exact fun s => .inr ⟨.value, s, rfl, rfl⟩
    | some m =>
      refine keeps_bind (keeps_tree cfg) (fun t => ?_)
      show KeepsCache (match t.map.get m with
          | none => M.raise (.key m)
          | some c => pure c)
      cases t.map.get m with
      | none => exact fun s => .inr ⟨.key m, s, rfl, rfl⟩
      | some c => exact keeps_pure _
  | readObj id => exact keep _ (keeps_textGet id)
  | writeObj id t =>
    refine keep _ ?_
    intro s
    unfold Mgr.textWrite
    cases s.heap[id]? with
    | none => exact .inr ⟨.index, s, rfl, rfl⟩
    | some o =>
      simp only
      cases s.fs.write t o.path with
      | none => exact .inr ⟨.os, s, rfl, rfl⟩
      | some fs => exact .inl ⟨(), _, rfl, rfl⟩
  | edit fs => exact h

/-- C28: after any history the cache has at most 101 entries, with different wildcards. -/
theorem cache_bounded (cfg : MgrCfg R) (fs : FNode) (rand : R) (ops : List MgrOp) :
    let s := runOps cfg ops (newMgr fs rand)
    s.cache.length ≤ 101 ∧ (s.cache.map (·.1)).Nodup := by
  have : ∀ (ops : List MgrOp) (s : Mgr R), Bounded s → Bounded (runOps cfg ops s) := by
    intro ops
    induction ops with
    | nil => intro s h; exact h
    | cons op ops ih => intro s h; exact ih _ (op_bounded cfg op s h)
  exact this ops _ ⟨by simp [newMgr], by simp [newMgr]⟩

/-- Entries do get stored. -/
example : (runOps demoCfg [.get c!"b", .get c!"*", .get c!"b", .get c!"nope"] (newMgr demoFs 0)).cache.map (·.1) =
    [c!"b", c!"*", c!"nope"] := by decide +kernel

/-! ## C29 The values are those of the matching collections -/

private theorem dedupe_idx (l : List Item) : ∀ seen,
    (dedupeAux id seen l).Pairwise (fun a b => l.idxOf a < l.idxOf b) ∧
      ∀ a ∈ dedupeAux id seen l, a ∉ seen := by
  induction l with
  | nil => intro seen; simp [dedupeAux]
  | cons x l ih =>
    intro seen
    unfold dedupeAux
    split
    · rename_i hx
      obtain ⟨h1, h2⟩ := ih seen
      refine ⟨?_, h2⟩
      refine List.Pairwise.imp_of_mem ?_ h1
      intro a b ha hb hab
      have hx' : x ∈ seen := by simpa using hx
      have hax : x ≠ a := fun e => h2 a ha (e ▸ hx')
      have hbx : x ≠ b := fun e => h2 b hb (e ▸ hx')
      rw [List.idxOf_cons_ne _ hax, List.idxOf_cons_ne _ hbx]
      omega
    · rename_i hx
      obtain ⟨h1, h2⟩ := ih (id x :: seen)
      have hne : ∀ a ∈ dedupeAux id (id x :: seen) l, x ≠ a := by
        intro a ha e
        exact h2 a ha (by simp [e])
      refine ⟨List.Pairwise.cons ?_ ?_, ?_⟩
      · intro b hb
        rw [List.idxOf_cons_self, List.idxOf_cons_ne _ (hne b hb)]
        omega
      · refine List.Pairwise.imp_of_mem ?_ h1
        intro a b ha hb hab
        rw [List.idxOf_cons_ne _ (hne a ha), List.idxOf_cons_ne _ (hne b hb)]
        omega
      · intro a ha
        rcases List.mem_cons.1 ha with rfl | ha
        · simpa using hx
        · intro hm; exact h2 a ha (by simp [hm])

theorem options_arranged (sort dedup : Bool) (u : List Item) :
    Arranged sort dedup u (applyOptions sort dedup false u) := by
  have hd := dedupe_spec (id : Item → Item) u
  simp only [List.map_id] at hd
  have hi := (dedupe_idx u []).1
  have hbase : ∀ x : List Item, (applyOptions sort dedup false u = if sort then sortItems x else x) →
      (x = if dedup then fromKeys u else u) → Arranged sort dedup u (applyOptions sort dedup false u) := by
    intro x hx hxd
    have hperm : (applyOptions sort dedup false u).Perm x := by
      rw [hx]; split
      · exact sortItems_perm x
      · exact List.Perm.refl x
    have hstab : ∀ t, (applyOptions sort dedup false u).filter (·.content = t) = x.filter (·.content = t) := by
      intro t; rw [hx]; split
      · exact sortItems_stable x t
      · rfl
    have hsub : x.Sublist u := by
      rw [hxd]; split
      · exact hd.1
      · exact List.Sublist.refl u
    refine ⟨?_, ?_, ?_, ?_, ?_, ?_⟩
    · intro h
      rw [if_pos h] at hxd
      subst hxd
      exact ⟨(hperm.nodup_iff).2 hd.2.1, fun i => by rw [hperm.mem_iff]; exact hd.2.2 i⟩
    · intro h
      rw [h] at hxd
      simp only [Bool.false_eq_true, if_false] at hxd
      rw [hxd] at hperm; exact hperm
    · intro h; rw [hx, if_pos h]; exact sortItems_sorted x
    · intro h
      rw [hx, h]; simpa using hsub
    · intro h
      rw [if_pos h] at hxd
      have hp : x.Pairwise fun a b => u.idxOf a < u.idxOf b := by rw [hxd]; exact hi
      rw [List.pairwise_iff_forall_sublist] at hp ⊢
      intro a b hab hc
      rcases hc with hs | hc
      · rw [hx, hs] at hab
        exact hp (by simpa using hab)
      · have h2 : [a, b].filter (·.content = b.content) = [a, b] := by simp [hc]
        have h3 := hab.filter (fun i : Item => decide (i.content = b.content))
        rw [h2, hstab] at h3
        exact hp (h3.trans List.filter_sublist)
    · intro t
      rw [hstab]; exact hsub.filter _
  refine hbase (if dedup then fromKeys u else u) ?_ rfl
  unfold applyOptions
  cases sort <;> simp

theorem textLe_antisymm {a b : Str} (h : TextLe a b) (h' : TextLe b a) : a = b := by
  rcases h with h | h
  · rcases h' with h' | h'
    · exfalso
      induction h with
      | nil => cases h'
      | cons _ ih =>
        cases h' with
        | cons h' => exact ih h'
        | rel h' => omega
      | rel h =>
        cases h' with
        | cons h' => omega
        | rel h' => omega
    · exact h'.symm
  · exact h

private theorem eq_of_filters : ∀ (a b : List Item), a.map Item.content = b.map Item.content →
    (∀ t, a.filter (·.content = t) = b.filter (·.content = t)) → a = b
  | [], [], _, _ => rfl
  | [], _ :: _, h, _ => by simp at h
  | _ :: _, [], h, _ => by simp at h
  | x :: a, y :: b, h, hf => by
    simp only [List.map_cons, List.cons.injEq] at h
    have hx := hf x.content
    simp only [List.filter_cons, h.1, decide_true, if_true] at hx
    rw [List.cons.injEq] at hx
    obtain rfl := hx.1
    congr 1
    refine eq_of_filters a b h.2 fun t => ?_
    have := hf t
    simp only [List.filter_cons] at this
    by_cases e : x.content = t
    · simp only [e, decide_true, if_true, List.cons.injEq, true_and] at this
      exact this
    · simpa [e] using this

/-- **C29.**  There is only one way to arrange values. -/
theorem arranged_unique {sort dedup : Bool} {found a b : List Item} (ha : Arranged sort dedup found a)
    (hb : Arranged sort dedup found b) : a = b := by
  cases dedup with
  | true =>
    obtain ⟨na, ma⟩ := ha.distinct rfl
    obtain ⟨nb, mb⟩ := hb.distinct rfl
    have hp : a.Perm b := (List.perm_ext_iff_of_nodup na nb).2 fun i => (ma i).trans (mb i).symm
    cases sort with
    | false =>
      refine hp.eq_of_pairwise (le := fun x y => found.idxOf x < found.idxOf y) ?_ ?_ ?_
      · intro x y _ _ h1 h2; omega
      · exact (ha.first rfl).imp fun h => h (.inl rfl)
      · exact (hb.first rfl).imp fun h => h (.inl rfl)
    | true =>
      refine hp.eq_of_pairwise (le := fun x y => TextLe x.content y.content ∧
        (x.content = y.content → found.idxOf x < found.idxOf y)) ?_ ?_ ?_
      · intro x y _ _ h1 h2
        have e := textLe_antisymm h1.1 h2.1
        have := h1.2 e
        have := h2.2 e.symm
        omega
      · exact ((ha.sorted rfl).and (ha.first rfl)).imp fun h => ⟨h.1, fun e => h.2 (.inr e)⟩
      · exact ((hb.sorted rfl).and (hb.first rfl)).imp fun h => ⟨h.1, fun e => h.2 (.inr e)⟩
  | false =>
    have pa := ha.all rfl
    have pb := hb.all rfl
    cases sort with
    | false =>
      exact ((ha.order rfl).eq_of_length pa.length_eq).trans ((hb.order rfl).eq_of_length pb.length_eq).symm
    | true =>
      refine eq_of_filters a b ?_ fun t => ?_
      · refine ((pa.trans pb.symm).map _).eq_of_pairwise (le := TextLe) ?_ ?_ ?_
        · intro x y _ _ h1 h2; exact textLe_antisymm h1 h2
        · exact List.pairwise_map.2 (ha.sorted rfl)
        · exact List.pairwise_map.2 (hb.sorted rfl)
      · exact ((ha.stable t).eq_of_length (pa.filter _).length_eq).trans
          ((hb.stable t).eq_of_length (pb.filter _).length_eq).symm

/-- C29, C31: in the situations of C27, the values returned are those the wildcard stands for
(`Finds`), without duplicates and sorted as the settings say. -/
theorem get_values_arranged (cfg : MgrCfg R) (past : Mgr R) (ops : List MgrOp) (w : Str) (v : List Item)
    (hoff : past.shuffle = false) (hr : ∀ op ∈ ops, ReadOnly op ∧ NoShuffle op)
    (hv : seen (Mgr.getValues cfg w (runOps cfg ops (Mgr.clearCache past))) = some (.ok v)) :
    let s := runOps cfg ops (Mgr.clearCache past)
    ∃ found, Finds cfg s.fs w found ∧ Arranged s.sort s.dedup found v := by
  intro s
  have hi : MgrInv (· = false) cfg s := by
    refine mgr_ops_inv _ cfg ops _ (mgr_clear_inv _ cfg past hoff) (fun o ho => (hr o ho).1) ?_
    intro b hb
    have := (hr _ hb).2
    cases b with
    | false => rfl
    | true => exact this.elim
  have := mgr_get_seen cfg s w hi
  rw [hv] at this
  cases hp : pureLookup cfg s.fs w with
  | none => rw [hp] at this; simp at this
  | some u =>
    rw [hp] at this
    simp only [Option.some.injEq, Except.ok.injEq] at this
    refine ⟨u, (pureLookup_finds _ _ _ _).1 hp, ?_⟩
    rw [this]; exact options_arranged _ _ _

/-- C29: a new manager sorts the values and leaves out duplicates. -/
theorem new_manager_values (cfg : MgrCfg R) (fs : FNode) (r : R) (w : Str) (v : List Item)
    (hv : seen (Mgr.getValues cfg w (newMgr fs r)) = some (.ok v)) :
    ∃ found, Finds cfg fs w found ∧ v.Nodup ∧ (∀ i, i ∈ v ↔ i ∈ found) ∧ v.Pairwise (fun a b => TextLe a.content b.content) := by
  obtain ⟨found, h1, h2⟩ := get_values_arranged cfg (newMgr fs r) [] w v rfl (by simp) hv
  exact ⟨found, h1, (h2.distinct rfl).1, (h2.distinct rfl).2, h2.sorted rfl⟩

/-- C29: and they are returned whenever the files can be read. -/
theorem get_values_succeeds (cfg : MgrCfg R) (past : Mgr R) (ops : List MgrOp) (w : Str) (found : List Item)
    (hr : ∀ op ∈ ops, ReadOnly op)
    (hf : Finds cfg (runOps cfg ops (Mgr.clearCache past)).fs w found) :
    ∃ v, seen (Mgr.getValues cfg w (runOps cfg ops (Mgr.clearCache past))) = some (.ok v) := by
  have hi : MgrInv (fun _ => True) cfg (runOps cfg ops (Mgr.clearCache past)) :=
    mgr_ops_inv _ cfg ops _ (mgr_clear_inv _ cfg past trivial) hr (fun _ _ => trivial)
  rcases mgr_get_seen_perm cfg _ w hi with ⟨hp, h⟩ | ⟨u, v, hp, h, hperm⟩
  · rw [(pureLookup_finds _ _ _ _).2 hf] at hp; simp at hp
  · exact ⟨v, h⟩

/-- C29: a wildcard stands for one list of values. -/
theorem finds_unique (cfg : MgrCfg R) (fs : FNode) (w : Str) (a b : List Item) (ha : Finds cfg fs w a)
    (hb : Finds cfg fs w b) : a = b := by
  have h1 := (pureLookup_finds _ _ _ _).2 ha
  have h2 := (pureLookup_finds _ _ _ _).2 hb
  rw [h1] at h2; simpa using h2

/-- C29 with shuffling: the values are those the wildcard stands for. -/
theorem get_values_shuffled (cfg : MgrCfg R) (past : Mgr R) (ops : List MgrOp) (w : Str) (v : List Item)
    (hr : ∀ op ∈ ops, ReadOnly op)
    (hv : seen (Mgr.getValues cfg w (runOps cfg ops (Mgr.clearCache past))) = some (.ok v)) :
    let s := runOps cfg ops (Mgr.clearCache past)
    ∃ found, Finds cfg s.fs w found ∧ (s.dedup = true → v.Nodup ∧ ∀ i, i ∈ v ↔ i ∈ found) ∧
      (s.dedup = false → v.Perm found) := by
  intro s
  have hi : MgrInv (fun _ => True) cfg s :=
    mgr_ops_inv _ cfg ops _ (mgr_clear_inv _ cfg past trivial) hr (fun _ _ => trivial)
  rcases mgr_get_seen_perm cfg s w hi with ⟨hp, h⟩ | ⟨u, v', hp, h, hperm⟩
  · rw [hv] at h; simp at h
  · rw [hv] at h
    simp only [Option.some.injEq, Except.ok.injEq] at h
    subst h
    have ha := options_arranged s.sort s.dedup u
    refine ⟨u, (pureLookup_finds _ _ _ _).1 hp, ?_, ?_⟩
    · intro hd
      exact ⟨hperm.nodup_iff.2 (ha.distinct hd).1, fun i => by rw [hperm.mem_iff]; exact (ha.distinct hd).2 i⟩
    · intro hd; exact hperm.trans (ha.all hd)

example : seen (Mgr.getValues demoCfg c!"*" (newMgr demoFs 0)) =
    some (.ok [⟨c!"blue", none⟩, ⟨c!"green", none⟩, ⟨c!"red", none⟩, ⟨c!"u", some 2⟩]) := by decide +kernel

example : seen (Mgr.getValues demoCfg c!"*" (Mgr.setDedup false (Mgr.setSort false (newMgr demoFs 0)))) =
    some (.ok [⟨c!"red", none⟩, ⟨c!"green", none⟩, ⟨c!"red", none⟩, ⟨c!"blue", none⟩, ⟨c!"u", some 2⟩]) := by
  decide +kernel

/-! ## C31 The recursive fallback -/

/-- C31: values of the pattern itself are returned alone. -/
theorem no_fallback_if_values (cfg : MgrCfg R) (fs : FNode) (w : Str) (vs found : List Item)
    (h : Matches cfg fs w vs) (hne : vs ≠ []) (hf : Finds cfg fs w found) : found = vs :=
  finds_unique cfg fs w found vs hf (.inl ⟨h, .inl hne⟩)

/-- C31: a pattern that starts with `**` is never extended. -/
theorem no_fallback_for_recursive (cfg : MgrCfg R) (fs : FNode) (w : Str) (vs found : List Item)
    (h : Matches cfg fs w vs) (hs : c!"**" <+: w) (hf : Finds cfg fs w found) : found = vs :=
  finds_unique cfg fs w found vs hf (.inl ⟨h, .inr hs⟩)

/-- C31: otherwise the values are those of `**/w`. -/
theorem fallback (cfg : MgrCfg R) (fs : FNode) (w : Str) (vs found : List Item)
    (h : Matches cfg fs w []) (hs : ¬ c!"**" <+: w) (hr : Matches cfg fs (c!"**/" ++ w) vs)
    (hf : Finds cfg fs w found) : found = vs :=
  finds_unique cfg fs w found vs hf (.inr ⟨h, hs, hr⟩)

/-- C25: what is left of a name without its wrap is the cleaned name, if it is canonical. -/
theorem canonical_rest_is_clean (wrap w n : Str) (hu : Unwraps wrap w n) (h : CanonicalName n) :
    cleanWildcard wrap w = some n := by
  obtain ⟨hdd, hb, h2, hl, ht⟩ := h
  have hsp : ∃ segs, Spells n segs ∧ pyJoin ['/'] segs = n := by
    rcases splitChar_segs n h2 hl ht with hseg | hseg
    · refine ⟨splitChar '/' n, ?_, pyJoin_splitChar n⟩
      have key : ∀ segs : List Str, segs ≠ [] → (∀ s ∈ segs, Seg s ∧ '\\' ∉ s) → Spells (pyJoin ['/'] segs) segs := by
        intro segs
        induction segs with
        | nil => intro h; exact absurd rfl h
        | cons x r ih =>
          intro _ hs
          have hx := hs x (by simp)
          have hsx : ∀ c ∈ x, ¬ Separator c := by
            rintro c hc (rfl | rfl)
            · exact hx.1.2 hc
            · exact hx.2 hc
          cases r with
          | nil => exact .last hx.1.1 hsx
          | cons y r =>
            have e : pyJoin ['/'] (x :: y :: r) = x ++ '/' :: pyJoin ['/'] (y :: r) := by simp [pyJoin]
            rw [e]
            exact .seg hx.1.1 hsx (.inl rfl) (ih (by simp) (fun s hs' => hs s (by simp at hs' ⊢; exact .inr hs')))
      have := key (splitChar '/' n) (splitAt1_ne_nil _ _) (by
        intro s hs
        refine ⟨hseg s hs, fun hm => hb ?_⟩
        rw [← pyJoin_splitChar n]
        have mem : ∀ (segs : List Str) (s : Str), s ∈ segs → ∀ c ∈ s, c ∈ pyJoin ['/'] segs := by
          intro segs
          induction segs with
          | nil => intro s hs; simp at hs
          | cons x r ih =>
            intro s hs c hc
            cases r with
            | nil => simp at hs; subst hs; simpa [pyJoin] using hc
            | cons y r =>
              rcases List.mem_cons.1 hs with rfl | hs
              · simp [pyJoin, hc]
              · have := ih s hs c hc
                simp only [pyJoin, List.mem_append]; exact .inr this
        exact mem _ s hs _ hm)
      rw [pyJoin_splitChar] at this
      exact this
    · have : n = [] := by rw [← pyJoin_splitChar n, hseg]; rfl
      subst this
      exact ⟨[], .nil, rfl⟩
  obtain ⟨segs, hs, hj⟩ := hsp
  have := (clean_by_segments wrap w n segs hu hs).2 (by
    rintro ⟨seg, hm, hd⟩
    apply hdd
    rw [← hj]
    refine hd.trans ?_
    clear hs hj hu
    induction segs with
    | nil => simp at hm
    | cons x r ih =>
      cases r with
      | nil => simp at hm; subst hm; exact List.infix_refl _
      | cons y r =>
        rcases List.mem_cons.1 hm with rfl | hm
        · exact ⟨[], '/' :: pyJoin ['/'] (y :: r), by simp [pyJoin]⟩
        · exact (ih hm).trans ⟨x ++ ['/'], [], by simp [pyJoin]⟩)
  rw [this, ← pyJoin_eq_intercalate, hj]

/-- C25: a canonical name without wrap around it is left as it is. -/
theorem canonical_is_clean (wrap n : Str) (hu : Unwraps wrap n n) (h : CanonicalName n) :
    cleanWildcard wrap n = some n := canonical_rest_is_clean wrap n n hu h

theorem recursive_canonical {w : Str} (hc : CanonicalName w) (hw : w ≠ []) : CanonicalName (c!"**/" ++ w) := by
  obtain ⟨h1, h2, h3, h4, h5⟩ := hc
  refine ⟨?_, by simp [h2], ?_, by simp, ?_⟩
  · simp only [List.cons_append, List.nil_append, List.infix_cons_iff, List.cons_prefix_cons]
    simp [h1]
  · simp only [List.cons_append, List.nil_append, List.infix_cons_iff, List.cons_prefix_cons]
    simp only [show ('/' = '*') = False by simp, false_and, false_or, true_and, not_or]
    exact ⟨h4, h3⟩
  · intro h
    apply h5
    obtain ⟨t, e⟩ := h
    obtain ⟨w', c, rfl⟩ : ∃ w' c, w = w' ++ [c] := ⟨_, _, (List.dropLast_concat_getLast hw).symm⟩
    rw [← List.append_assoc] at e
    have := (List.append_inj' e rfl).2
    simp only [List.cons.injEq, and_true] at this
    exact ⟨w', by rw [this]⟩

/-- C31: for a plain canonical name, the collections searched by the fallback are those at any depth
below the top whose path ends with the name. -/
theorem fallback_collections (cfg : MgrCfg R) (w name : Str) (hp : Plain w) (hc : CanonicalName w) (hw : w ≠ [])
    (hu : Unwraps cfg.wrap (c!"**/" ++ w) (c!"**/" ++ w)) :
    ∃ pat, cleanWildcard cfg.wrap (c!"**/" ++ w) = some pat ∧
      (fnmatch name pat = true ↔ ∃ pre, name = pre ++ '/' :: w) := by
  refine ⟨c!"**/" ++ w, canonical_is_clean _ _ hu (recursive_canonical hc hw), recursive_pattern w name hp⟩

/-- C31: a plain canonical name may be given with the wrap on both sides.  It is looked up as without, but the fallback is not the same:
the leading wrap is then in the middle of the pattern and stays, so that only paths that end with the wrap and the name are found. -/
theorem wrapped_fallback_collections (cfg : MgrCfg R) (w name : Str) (hp : Plain (cfg.wrap ++ w)) (hc : CanonicalName (cfg.wrap ++ w))
    (hw : w ≠ []) (hr : CanonicalName w) (hu : ¬ cfg.wrap <+: c!"**/" ++ cfg.wrap ++ w ++ cfg.wrap) :
    cleanWildcard cfg.wrap (cfg.wrap ++ w ++ cfg.wrap) = some w ∧
    ∃ pat, cleanWildcard cfg.wrap (c!"**/" ++ (cfg.wrap ++ w ++ cfg.wrap)) = some pat ∧
      (fnmatch name pat = true ↔ ∃ pre, name = pre ++ '/' :: (cfg.wrap ++ w)) := by
  refine ⟨canonical_rest_is_clean _ _ _ ⟨w ++ cfg.wrap, .inl (by simp), .inl rfl⟩ hr,
    c!"**/" ++ (cfg.wrap ++ w), canonical_rest_is_clean _ _ _ ⟨_, .inr ⟨?_, rfl⟩, .inl (by simp)⟩
      (recursive_canonical hc (by simp [hw])), recursive_pattern _ name hp⟩
  simpa using hu

example : Plain c!"a" ∧ CanonicalName c!"a" ∧ Unwraps c!"__" (c!"**/" ++ c!"a") (c!"**/" ++ c!"a") := by
  refine ⟨by intro c hc; simp at hc; subst hc; decide, by unfold CanonicalName; decide +kernel, ?_⟩
  exact ⟨c!"**/a", .inr ⟨by decide +kernel, rfl⟩, .inr ⟨by decide +kernel, rfl⟩⟩

/-- With `__` as the wrap, `__a__` is looked up as `a`, and then as `__a` at any depth. -/
example (name : Str) : ∃ pat, cleanWildcard demoCfg.wrap (c!"**/" ++ (demoCfg.wrap ++ c!"a" ++ demoCfg.wrap)) = some pat ∧
    (fnmatch name pat = true ↔ ∃ pre, name = pre ++ '/' :: c!"__a") :=
  (wrapped_fallback_collections demoCfg c!"a" name
    (by intro c hc; revert c; decide +kernel) (by unfold CanonicalName; decide +kernel) (by decide)
    (by unfold CanonicalName; decide +kernel) (by decide +kernel)).2

/-- `a` is not a collection, `d/a` is. -/
example : seen (Mgr.getValues demoCfg c!"a" (newMgr demoFs 0)) = some (.ok [⟨c!"blue", none⟩]) ∧
    seen (Mgr.getValues demoCfg c!"**a" (newMgr demoFs 0)) = some (.ok [⟨c!"blue", none⟩]) ∧
    seen (Mgr.getValues demoCfg c!"__a__" (newMgr demoFs 0)) = some (.ok []) := by decide +kernel

/-! ## C38 Shuffling only permutes -/

/-- C38: a shuffled list has the same items with the same multiplicities, for every random source. -/
theorem shuffle_permutes {α : Type} (r : Rng R) (l : List α) (w : R) : (r.shuffle l w).1.Perm l :=
  shuffle_perm r l w

/-- C38: shuffling does not change what the manager keeps: after a `get_values` with shuffling on,
the cached values are the same as if it were off afterwards. -/
theorem shuffle_keeps_original (cfg : MgrCfg R) (s : Mgr R) (w : Str) (v : List Item) (s' : Mgr R)
    (h : Mgr.getValuesRaw cfg w s = .ok v s') :
    ∃ v' s'', Mgr.getValues cfg w s = .ok v' s'' ∧ v'.Perm v ∧ s''.cache = s'.cache ∧
      (s'.shuffle = false → v' = v) := by
  unfold Mgr.getValues
  simp only [h]
  by_cases hs : s'.shuffle = true
  · simp only [if_pos hs]
    exact ⟨_, _, rfl, shuffle_perm _ _ _, rfl, by simp [hs]⟩
  · simp only [if_neg hs]
    exact ⟨_, _, rfl, List.Perm.refl _, rfl, fun _ => rfl⟩

example : (demoRng.shuffle [1, 2, 3] 0).1 = [2, 3, 1] := by decide +kernel

end Verif.Props
