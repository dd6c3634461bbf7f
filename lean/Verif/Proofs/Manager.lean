import Verif.Spec.Manager
import Verif.Proofs.Tree
import Verif.Proofs.Text
/-!
# Lemmas about the wildcard manager
-/

namespace Verif
open Spec

/-! ## Sorting, duplicates, shuffling -/

theorem strLe_iff (a b : Str) : strLe a b = true ↔ TextLe a b := by
  unfold TextLe
  induction a generalizing b with
  | nil =>
    cases b with
    | nil => simp [strLe]
    | cons b bs => simp [strLe]
  | cons a as ih =>
    cases b with
    | nil => simp [strLe]
    | cons b bs =>
      simp only [strLe]
      by_cases h : a = b
      · subst h
        rw [if_pos rfl, ih]
        constructor
        · rintro (h | h)
          · exact .inl (List.Lex.cons h)
          · exact .inr (by rw [h])
        · rintro (h | h)
          · cases h with
            | rel h => exact absurd h (Nat.lt_irrefl _)
            | cons h => exact .inl h
          · exact .inr (by simpa using h)
      · rw [if_neg h, decide_eq_true_iff]
        constructor
        · intro hl; exact .inl (List.Lex.rel hl)
        · rintro (h' | h')
          · cases h' with
            | rel h => exact h
            | cons h' => exact absurd rfl h
          · simp at h'; exact absurd h'.1 h

theorem strLe_total (a b : Str) : strLe a b = true ∨ strLe b a = true := by
  induction a generalizing b with
  | nil => exact .inl rfl
  | cons a as ih =>
    cases b with
    | nil => exact .inr rfl
    | cons b bs =>
      simp only [strLe]
      by_cases h : a = b
      · subst h; simpa using ih bs
      · rw [if_neg h, if_neg (Ne.symm h)]
        simp only [decide_eq_true_iff]
        have : a.toNat ≠ b.toNat := fun e => h (Char.ext (UInt32.ext e))
        omega

theorem strLe_trans (a b c : Str) (h1 : strLe a b = true) (h2 : strLe b c = true) : strLe a c = true := by
  induction a generalizing b c with
  | nil => rfl
  | cons x xs ih =>
    cases b with
    | nil => simp [strLe] at h1
    | cons y ys =>
      cases c with
      | nil => simp [strLe] at h2
      | cons z zs =>
        simp only [strLe] at h1 h2 ⊢
        by_cases hxy : x = y
        · subst hxy
          by_cases hxz : x = z
          · subst hxz
            simp only [if_pos] at h1 h2 ⊢
            exact ih _ _ h1 h2
          · rw [if_neg hxz] at h2 ⊢; exact h2
        · rw [if_neg hxy] at h1
          simp only [decide_eq_true_iff] at h1
          by_cases hyz : y = z
          · subst hyz
            rw [if_neg hxy]; simpa using h1
          · rw [if_neg hyz] at h2
            simp only [decide_eq_true_iff] at h2
            have hxz : x ≠ z := by rintro rfl; omega
            rw [if_neg hxz]
            simp only [decide_eq_true_iff]; omega

theorem insertItem_perm (i : Item) (l : List Item) : (insertItem i l).Perm (i :: l) := by
  induction l with
  | nil => exact List.Perm.refl _
  | cons j l ih =>
    simp only [insertItem]
    split
    · exact List.Perm.refl _
    · exact (ih.cons j).trans (List.Perm.swap i j l)

theorem sortItems_perm (l : List Item) : (sortItems l).Perm l := by
  induction l with
  | nil => exact List.Perm.refl _
  | cons i l ih => exact (insertItem_perm i _).trans (ih.cons i)

theorem insertItem_sorted (i : Item) (l : List Item)
    (h : l.Pairwise fun a b => strLe a.content b.content = true) :
    (insertItem i l).Pairwise fun a b => strLe a.content b.content = true := by
  induction l with
  | nil => simp [insertItem]
  | cons j l ih =>
    simp only [insertItem]
    split
    · rename_i hij
      refine List.Pairwise.cons ?_ h
      intro b hb
      rcases List.mem_cons.1 hb with rfl | hb
      · exact hij
      · exact strLe_trans _ _ _ hij (List.rel_of_pairwise_cons h hb)
    · rename_i hij
      refine List.Pairwise.cons ?_ (ih (List.Pairwise.of_cons h))
      intro b hb
      rcases List.mem_cons.1 ((insertItem_perm i l).mem_iff.1 hb) with rfl | hb
      · exact (strLe_total b.content j.content).resolve_left hij
      · exact List.rel_of_pairwise_cons h hb

theorem sortItems_sorted (l : List Item) :
    (sortItems l).Pairwise fun a b => TextLe a.content b.content := by
  have : (sortItems l).Pairwise fun a b => strLe a.content b.content = true := by
    induction l with
    | nil => exact List.Pairwise.nil
    | cons i l ih => exact insertItem_sorted i _ ih
  exact this.imp fun h => (strLe_iff _ _).1 h

theorem insertItem_stable (i : Item) (l : List Item) (t : Str) :
    (insertItem i l).filter (·.content = t) = (i :: l).filter (·.content = t) := by
  induction l with
  | nil => rfl
  | cons j l ih =>
    simp only [insertItem]
    split
    · rfl
    · rename_i hij
      have hne : i.content ≠ j.content := by
        intro e
        apply hij
        rw [e]
        rcases strLe_total j.content j.content with h | h <;> exact h
      rw [List.filter_cons, ih]
      by_cases hi : i.content = t
      · have hj : ¬ j.content = t := fun e => hne (hi.trans e.symm)
        simp [hi, hj]
      · simp [List.filter_cons, hi]

theorem sortItems_stable (l : List Item) (t : Str) :
    (sortItems l).filter (·.content = t) = l.filter (·.content = t) := by
  induction l with
  | nil => rfl
  | cons i l ih =>
    rw [sortItems, insertItem_stable, List.filter_cons, List.filter_cons, ih]

theorem swapAt_perm {α : Type} (l : List α) (i j : Nat) : (swapAt l i j).Perm l := by
  classical
  unfold swapAt
  cases hi : l[i]? with
  | none => exact List.Perm.refl _
  | some a =>
    cases hj : l[j]? with
    | none => exact List.Perm.refl _
    | some b =>
      obtain ⟨hi', rfl⟩ := List.getElem?_eq_some_iff.1 hi
      obtain ⟨hj', rfl⟩ := List.getElem?_eq_some_iff.1 hj
      exact List.set_set_perm hi' hj'

theorem shuffleLoop_perm {R α : Type} (r : Rng R) (n : Nat) : ∀ (l : List α) (w : R),
    (r.shuffleLoop n l w).1.Perm l := by
  induction n with
  | zero => intro l w; exact List.Perm.refl _
  | succ n ih => intro l w; exact (ih _ _).trans (swapAt_perm l _ _)

theorem shuffle_perm {R α : Type} (r : Rng R) (l : List α) (w : R) : (r.shuffle l w).1.Perm l :=
  shuffleLoop_perm r _ l w

/-! ## What lookups give -/

/-- The values of a collection; `none` if its file cannot be read. -/
def collVal (fs : FNode) : RawColl → Option (List Item)
  | .items l => some l
  | .file p => (fs.read p).map fun c => (textValues c).map (⟨·, none⟩)

/-- The values of several collections. -/
def valuesOf (fs : FNode) : List RawColl → Option (List Item)
  | [] => some []
  | c :: cs =>
    match collVal fs c with
    | none => none
    | some a =>
      match valuesOf fs cs with
      | none => none
      | some b => some (a ++ b)

variable {R : Type}

/-- The collections matching a wildcard. -/
def pureMatch (cfg : MgrCfg R) (fs : FNode) (w : Str) : List RawColl :=
  match cleanWildcard cfg.wrap w with
  | none => []
  | some pat => ((rootMapColls cfg.lib fs cfg.roots).filter fun q => fnmatch q.1 pat).map (·.2)

/-- The values found for a wildcard. -/
def pureLookup (cfg : MgrCfg R) (fs : FNode) (w : Str) : Option (List Item) :=
  match valuesOf fs (pureMatch cfg fs w) with
  | none => none
  | some v =>
    if v.isEmpty && !startsWith w c!"**" then valuesOf fs (pureMatch cfg fs (c!"**/" ++ w)) else some v

theorem collVal_holds (fs : FNode) (c : RawColl) (vs : List Item) : collVal fs c = some vs ↔ Holds fs c vs := by
  constructor
  · intro h
    cases c with
    | items l => simp [collVal] at h; subst h; exact .items
    | file p =>
      simp only [collVal, Option.map_eq_some_iff] at h
      obtain ⟨t, ht, rfl⟩ := h
      obtain ⟨ls, h1⟩ := lines_total t
      obtain ⟨vs, h2⟩ := textEntries_total ls
      rw [textValues, fileLines_eq h1, textEntries_eq h2]
      exact .file ht h1 h2
  · intro h
    cases h with
    | items => rfl
    | file h1 h2 h3 =>
      simp only [collVal, h1, Option.map_some]
      rw [textValues, fileLines_eq h2, textEntries_eq h3]

theorem valuesOf_gathers (fs : FNode) (pat : Str) (m : List (Str × RawColl)) (vs : List Item) :
    valuesOf fs ((m.filter fun q => fnmatch q.1 pat).map (·.2)) = some vs ↔ Gathers fs pat m vs := by
  induction m generalizing vs with
  | nil =>
    constructor
    · intro h; simp [valuesOf] at h; subst h; exact .nil
    · intro h; cases h; rfl
  | cons q m ih =>
    obtain ⟨n, c⟩ := q
    by_cases hf : fnmatch n pat = true
    · rw [List.filter_cons_of_pos (by exact hf), List.map_cons]
      simp only [valuesOf]
      constructor
      · intro h
        cases hc : collVal fs c with
        | none => simp [hc] at h
        | some a =>
          rw [hc] at h
          cases hb : valuesOf fs ((m.filter fun q => fnmatch q.1 pat).map (·.2)) with
          | none => simp [hb] at h
          | some b =>
            rw [hb] at h
            simp at h; subst h
            exact .take hf ((collVal_holds _ _ _).1 hc) ((ih b).1 hb)
      · intro h
        cases h with
        | skip h => rw [hf] at h; exact absurd h (by simp)
        | take h1 h2 h3 => simp only [(collVal_holds _ _ _).2 h2, (ih _).2 h3]
    · rw [List.filter_cons_of_neg (by exact hf), ih]
      constructor
      · intro h; exact .skip (by simpa using hf) h
      · intro h
        cases h with
        | skip _ h => exact h
        | take h => exact absurd h hf

theorem valuesOf_matches (cfg : MgrCfg R) (fs : FNode) (w : Str) (vs : List Item) :
    valuesOf fs (pureMatch cfg fs w) = some vs ↔ Matches cfg fs w vs := by
  unfold pureMatch Matches
  cases cleanWildcard cfg.wrap w with
  | none => simp [valuesOf, eq_comm]
  | some pat => simp [valuesOf_gathers]

theorem pureLookup_finds (cfg : MgrCfg R) (fs : FNode) (w : Str) (vs : List Item) :
    pureLookup cfg fs w = some vs ↔ Finds cfg fs w vs := by
  have hpre : startsWith w c!"**" = true ↔ c!"**" <+: w := by
    rw [startsWith_iff]
    exact ⟨fun ⟨t, e⟩ => ⟨t, e.symm⟩, fun ⟨t, e⟩ => ⟨t, e.symm⟩⟩
  unfold pureLookup Finds
  rw [← valuesOf_matches, ← valuesOf_matches, ← valuesOf_matches]
  cases hv : valuesOf fs (pureMatch cfg fs w) with
  | none => simp
  | some v =>
    simp only [Option.some.injEq]
    by_cases he : v = []
    · subst he
      by_cases hs : c!"**" <+: w
      · simp [hpre.2 hs, hs]
      · have hs' : startsWith w c!"**" = false := by rw [← Bool.not_eq_true, hpre]; exact hs
        simp only [hs', List.isEmpty_nil, Bool.not_false, Bool.and_self, if_true, hs, or_false, true_and]
        constructor
        · intro h; exact .inr ⟨fun h => h.elim, h⟩
        · rintro (⟨rfl, h⟩ | ⟨-, h⟩)
          · exact absurd rfl h
          · exact h
    · have : v.isEmpty = false := by cases v <;> simp_all
      simp only [this, Bool.false_and, Bool.false_eq_true, if_false, Option.some.injEq, he, false_and, or_false]
      constructor
      · rintro rfl; exact ⟨rfl, .inl he⟩
      · rintro ⟨rfl, -⟩; rfl

/-! ## States of the manager -/

/-- A collection object stands for a collection of the map, and its cache is up to date. -/
def CorrC (fs : FNode) (heap : List TextObj) : WColl → RawColl → Prop
  | .list l, .items l' => l = l'
  | .text id, .file p => ∃ cache, heap[id]? = some ⟨p, cache⟩ ∧
      (cache = none ∨ ∃ c, fs.read p = some c ∧ cache = some (textValues c))
  | _, _ => False

/-- The tree, if there is one, fits the files. -/
def TreeOk (cfg : MgrCfg R) (s : Mgr R) : Prop :=
  ∀ t, s.tree = some t →
    List.Forall₂ (fun p q => p.1 = q.1 ∧ CorrC s.fs s.heap p.2 q.2) t.map (rootMapColls cfg.lib s.fs cfg.roots)

/-- `s'` comes from `s` by reading. -/
structure Ext (cfg : MgrCfg R) (s s' : Mgr R) : Prop where
  fs : s'.fs = s.fs
  rand : s'.rand = s.rand
  cache : s'.cache = s.cache
  sort : s'.sort = s.sort
  dedup : s'.dedup = s.dedup
  shuffle : s'.shuffle = s.shuffle
  corr : ∀ c raw, CorrC s.fs s.heap c raw → CorrC s'.fs s'.heap c raw
  tree : TreeOk cfg s → TreeOk cfg s'

theorem Ext.refl (cfg : MgrCfg R) (s : Mgr R) : Ext cfg s s :=
  ⟨rfl, rfl, rfl, rfl, rfl, rfl, fun _ _ h => h, id⟩

theorem Ext.trans {cfg : MgrCfg R} {a b c : Mgr R} (h : Ext cfg a b) (k : Ext cfg b c) : Ext cfg a c :=
  ⟨k.fs.trans h.fs, k.rand.trans h.rand, k.cache.trans h.cache, k.sort.trans h.sort, k.dedup.trans h.dedup,
    k.shuffle.trans h.shuffle, fun x y hx => k.corr x y (h.corr x y hx), k.tree ∘ h.tree⟩

/-- Running gives a value, or the exception of a missing file, by reading only. -/
def MGives {α : Type} (cfg : MgrCfg R) (x : M (Mgr R) α) (s : Mgr R) : Option α → Prop
  | some v => ∃ s', x s = .ok v s' ∧ Ext cfg s s'
  | none => ∃ s', x s = .err .os s' ∧ Ext cfg s s'

theorem alloc_corr (fs : FNode) (m : List (Str × RawColl)) : ∀ heap : List TextObj,
    (∃ new, (allocColls m heap).2 = heap ++ new) ∧
    List.Forall₂ (fun p q => p.1 = q.1 ∧ CorrC fs (allocColls m heap).2 p.2 q.2) (allocColls m heap).1 m := by
  induction m with
  | nil => intro heap; exact ⟨⟨[], by simp [allocColls]⟩, .nil⟩
  | cons q m ih =>
    intro heap
    obtain ⟨n, c⟩ := q
    cases c with
    | items l =>
      obtain ⟨h1, h2⟩ := ih heap
      exact ⟨h1, .cons ⟨rfl, rfl⟩ h2⟩
    | file p =>
      obtain ⟨⟨new, h1⟩, h2⟩ := ih (heap ++ [⟨p, none⟩])
      refine ⟨⟨⟨p, none⟩ :: new, by simp [allocColls, h1]⟩, .cons ⟨rfl, ?_⟩ h2⟩
      refine ⟨none, ?_, .inl rfl⟩
      show (allocColls m (heap ++ [⟨p, none⟩])).2[heap.length]? = _
      rw [h1]; simp

theorem corr_append (fs : FNode) (heap new : List TextObj) (c : WColl) (raw : RawColl)
    (h : CorrC fs heap c raw) : CorrC fs (heap ++ new) c raw := by
  cases c <;> cases raw <;> simp only [CorrC] at h ⊢
  · exact h
  · obtain ⟨cache, h1, h2⟩ := h
    refine ⟨cache, ?_, h2⟩
    rw [List.getElem?_append_left (List.getElem?_eq_some_iff.1 h1).1]; exact h1

theorem fromMap_map {α : Type} (m : Dict α) : (Tree.fromMap m).map = m := by
  unfold Tree.fromMap
  cases m <;> rfl

theorem getTree_gives (cfg : MgrCfg R) (s : Mgr R) :
    ∃ t s', Mgr.getTree cfg s = .ok t s' ∧ Ext cfg s s' ∧ s'.tree = some t := by
  unfold Mgr.getTree
  cases ht : s.tree with
  | some t => exact ⟨t, s, rfl, Ext.refl cfg s, ht⟩
  | none =>
    obtain ⟨⟨new, h1⟩, h2⟩ := alloc_corr s.fs (rootMapColls cfg.lib s.fs cfg.roots) s.heap
    refine ⟨_, _, rfl, ⟨rfl, rfl, rfl, rfl, rfl, rfl, ?_, ?_⟩, rfl⟩
    · intro c raw hc
      simp only [h1]
      exact corr_append _ _ _ _ _ hc
    · intro _ t' ht'
      simp only [Option.some.injEq] at ht'
      subst ht'
      rw [fromMap_map]
      exact h2

theorem corr_set (fs : FNode) (heap : List TextObj) (id : Nat) (o : TextObj) (contents : Str)
    (ho : heap[id]? = some o) (hr : fs.read o.path = some contents) (c : WColl) (raw : RawColl)
    (h : CorrC fs heap c raw) : CorrC fs (heap.set id ⟨o.path, some (textValues contents)⟩) c raw := by
  cases c <;> cases raw <;> simp only [CorrC] at h ⊢
  · exact h
  · rename_i id' p
    obtain ⟨cache, h1, h2⟩ := h
    by_cases he : id' = id
    · subst he
      rw [ho] at h1
      simp only [Option.some.injEq] at h1
      subst h1
      refine ⟨_, List.getElem?_set_self (List.getElem?_eq_some_iff.1 ho).1, .inr ⟨contents, hr, rfl⟩⟩
    · exact ⟨cache, by rw [List.getElem?_set_ne (Ne.symm he)]; exact h1, h2⟩

/-- Reading any text file object is reading. -/
theorem textGet_ext (cfg : MgrCfg R) (s : Mgr R) (id : Nat) :
    (∃ v s', Mgr.textGetValues id s = .ok v s' ∧ Ext cfg s s') ∨
    (∃ e s', Mgr.textGetValues (R := R) id s = .err e s' ∧ Ext cfg s s') := by
  unfold Mgr.textGetValues
  cases ho : s.heap[id]? with
  | none => exact .inr ⟨_, s, rfl, Ext.refl cfg s⟩
  | some o =>
    cases hc : o.cache with
    | some vs => exact .inl ⟨vs, s, by simp [hc], Ext.refl cfg s⟩
    | none =>
      cases hr : s.fs.read o.path with
      | none => exact .inr ⟨.os, s, by simp [hc, hr], Ext.refl cfg s⟩
      | some contents =>
        refine .inl ⟨textValues contents,
          { s with heap := s.heap.set id ⟨o.path, some (textValues contents)⟩ }, by simp [hc, hr], ⟨rfl, rfl, rfl, rfl, rfl, rfl, ?_, ?_⟩⟩
        · intro c raw h
          exact corr_set _ _ _ _ _ ho hr c raw h
        · intro h t ht
          refine List.Forall₂.imp ?_ (h t ht)
          intro p q hpq
          exact ⟨hpq.1, corr_set _ _ _ _ _ ho hr _ _ hpq.2⟩

theorem collValues_gives (cfg : MgrCfg R) (s : Mgr R) (c : WColl) (raw : RawColl)
    (h : CorrC s.fs s.heap c raw) : MGives cfg (Mgr.collValues c) s (collVal s.fs raw) := by
  cases c with
  | list l =>
    cases raw with
    | items l' => simp only [CorrC] at h; subst h; exact ⟨s, rfl, Ext.refl cfg s⟩
    | file p => simp [CorrC] at h
  | text id =>
    cases raw with
    | items l => simp [CorrC] at h
    | file p =>
      obtain ⟨cache, ho, hc⟩ := h
      have hb : ∀ s, Mgr.collValues (R := R) (.text id) s =
          match Mgr.textGetValues id s with
          | .ok vs s' => .ok (vs.map (⟨·, none⟩)) s'
          | .err e s' => .err e s'
          | .fuel => .fuel := by
        intro s
        show M.bind (Mgr.textGetValues id) _ s = _
        simp only [M.bind]
        cases Mgr.textGetValues id s <;> rfl
      rcases textGet_ext cfg s id with ⟨v, s', hv, he⟩ | ⟨e, s', hv, he⟩
      · have hv' := hv
        simp only [Mgr.textGetValues, ho] at hv'
        rcases hc with rfl | ⟨c, hr, rfl⟩
        · cases hr : s.fs.read p with
          | none => simp [hr] at hv'
          | some c =>
            simp only [hr, Res.ok.injEq] at hv'
            simp only [collVal, hr, Option.map_some]
            exact ⟨s', by rw [hb, hv, ← hv'.1], he⟩
        · simp only [Res.ok.injEq] at hv'
          simp only [collVal, hr, Option.map_some]
          exact ⟨s', by rw [hb, hv, ← hv'.1], he⟩
      · have hv' := hv
        simp only [Mgr.textGetValues, ho] at hv'
        rcases hc with rfl | ⟨c, hr, rfl⟩
        · cases hr : s.fs.read p with
          | none =>
            simp only [hr, Res.err.injEq] at hv'
            simp only [collVal, hr, Option.map_none]
            exact ⟨s', by rw [hb, hv, ← hv'.1], he⟩
          | some c => simp [hr] at hv'
        · simp at hv'

theorem collsValues_gives (cfg : MgrCfg R) (cs : List WColl) : ∀ (raws : List RawColl) (s : Mgr R),
    List.Forall₂ (CorrC s.fs s.heap) cs raws →
    MGives cfg (Mgr.collsValues cs) s (valuesOf s.fs raws) := by
  induction cs with
  | nil => intro raws s h; cases h; exact ⟨s, rfl, Ext.refl cfg s⟩
  | cons c cs ih =>
    intro raws s h
    cases h with
    | @cons _ raw _ raws hc hcs =>
      have hb : ∀ s, Mgr.collsValues (R := R) (c :: cs) s =
          match Mgr.collValues c s with
          | .ok a s1 =>
            (match Mgr.collsValues cs s1 with
            | .ok b s2 => .ok (a ++ b) s2
            | .err e s2 => .err e s2
            | .fuel => .fuel)
          | .err e s1 => .err e s1
          | .fuel => .fuel := by
        intro s
        show M.bind (Mgr.collValues c) _ s = _
        simp only [M.bind]
        cases Mgr.collValues c s with
        | ok a s1 =>
          show M.bind (Mgr.collsValues cs) _ s1 = _
          simp only [M.bind]
          cases Mgr.collsValues cs s1 <;> rfl
        | err e s1 => rfl
        | fuel => rfl
      have g1 := collValues_gives cfg s c raw hc
      simp only [valuesOf]
      cases hv : collVal s.fs raw with
      | none =>
        rw [hv] at g1
        obtain ⟨s1, e1, x1⟩ := g1
        exact ⟨s1, by rw [hb, e1], x1⟩
      | some a =>
        rw [hv] at g1
        obtain ⟨s1, e1, x1⟩ := g1
        have g2 := ih raws s1 (hcs.imp fun x y h => x1.corr x y h)
        rw [x1.fs] at g2
        cases hw : valuesOf s.fs raws with
        | none =>
          rw [hw] at g2
          obtain ⟨s2, e2, x2⟩ := g2
          exact ⟨s2, by rw [hb, e1]; simp only [e2], x1.trans x2⟩
        | some b =>
          rw [hw] at g2
          obtain ⟨s2, e2, x2⟩ := g2
          exact ⟨s2, by rw [hb, e1]; simp only [e2], x1.trans x2⟩

theorem matchCollections_gives (cfg : MgrCfg R) (s : Mgr R) (w : Str) (h : TreeOk cfg s) :
    ∃ cs s', Mgr.matchCollections cfg w s = .ok cs s' ∧ Ext cfg s s' ∧
      List.Forall₂ (CorrC s'.fs s'.heap) cs (pureMatch cfg s.fs w) := by
  unfold Mgr.matchCollections pureMatch
  cases cleanWildcard cfg.wrap w with
  | none => exact ⟨[], s, rfl, Ext.refl cfg s, .nil⟩
  | some pat =>
    obtain ⟨t, s', e, x, ht⟩ := getTree_gives cfg s
    refine ⟨t.matching pat, s', ?_, x, ?_⟩
    · show M.bind (Mgr.getTree cfg) _ s = _
      simp only [M.bind, e]; rfl
    · have hf := x.tree h t ht
      rw [x.fs] at hf ⊢
      unfold Tree.matching
      generalize t.map = tm at hf
      generalize rootMapColls cfg.lib s.fs cfg.roots = rm at hf
      show List.Forall₂ _ _ ((rm.filter fun q => fnmatch q.1 pat).map (·.2))
      induction hf with
      | nil => exact .nil
      | @cons p q ps qs hpq _ ih =>
        simp only [List.filter_cons, hpq.1]
        by_cases hm : fnmatch q.1 pat = true
        · simp only [if_pos hm, List.map_cons]
          exact .cons hpq.2 ih
        · simp only [if_neg hm]; exact ih

theorem matchValues_gives (cfg : MgrCfg R) (s : Mgr R) (w : Str) (h : TreeOk cfg s) :
    MGives cfg (do let colls ← Mgr.matchCollections cfg w; Mgr.collsValues colls) s
      (valuesOf s.fs (pureMatch cfg s.fs w)) := by
  obtain ⟨cs, s1, e1, x1, hf⟩ := matchCollections_gives cfg s w h
  have g := collsValues_gives cfg cs _ s1 hf
  rw [x1.fs] at g
  cases hv : valuesOf s.fs (pureMatch cfg s.fs w) with
  | none =>
    rw [hv] at g
    obtain ⟨s2, e2, x2⟩ := g
    refine ⟨s2, ?_, x1.trans x2⟩
    show M.bind (Mgr.matchCollections cfg w) _ s = _
    simp only [M.bind, e1]; exact e2
  | some v =>
    rw [hv] at g
    obtain ⟨s2, e2, x2⟩ := g
    refine ⟨s2, ?_, x1.trans x2⟩
    show M.bind (Mgr.matchCollections cfg w) _ s = _
    simp only [M.bind, e1]; exact e2

theorem lookup_gives (cfg : MgrCfg R) (s : Mgr R) (w : Str) (h : TreeOk cfg s) :
    MGives cfg (Mgr.lookup cfg w) s (pureLookup cfg s.fs w) := by
  have hb : ∀ s, Mgr.lookup cfg w s =
      match (do let colls ← Mgr.matchCollections cfg w; Mgr.collsValues colls : M (Mgr R) (List Item)) s with
      | .ok v s1 => (if v.isEmpty && !startsWith w c!"**" then
          (do let colls ← Mgr.matchCollections cfg (c!"**/" ++ w); Mgr.collsValues colls : M (Mgr R) (List Item))
          else pure v) s1
      | .err e s1 => .err e s1
      | .fuel => .fuel := by
    intro s
    have e1 : (do let colls ← Mgr.matchCollections cfg w; Mgr.collsValues colls : M (Mgr R) (List Item)) s =
        M.bind (Mgr.matchCollections cfg w) Mgr.collsValues s := rfl
    rw [e1]
    show M.bind (Mgr.matchCollections cfg w) _ s = _
    simp only [M.bind]
    cases Mgr.matchCollections cfg w s with
    | ok cs s1 =>
      show M.bind (Mgr.collsValues cs) _ s1 = _
      simp only [M.bind]
      cases Mgr.collsValues cs s1 <;> rfl
    | err e s1 => rfl
    | fuel => rfl
  have g := matchValues_gives cfg s w h
  unfold pureLookup
  cases hv : valuesOf s.fs (pureMatch cfg s.fs w) with
  | none =>
    rw [hv] at g
    obtain ⟨s1, e1, x1⟩ := g
    exact ⟨s1, by rw [hb, e1], x1⟩
  | some v =>
    rw [hv] at g
    obtain ⟨s1, e1, x1⟩ := g
    by_cases hc : (v.isEmpty && !startsWith w c!"**") = true
    · simp only [if_pos hc]
      have g2 := matchValues_gives cfg s1 (c!"**/" ++ w) (x1.tree h)
      rw [x1.fs] at g2
      cases hw : valuesOf s.fs (pureMatch cfg s.fs (c!"**/" ++ w)) with
      | none =>
        rw [hw] at g2
        obtain ⟨s2, e2, x2⟩ := g2
        exact ⟨s2, by rw [hb, e1]; simp only [if_pos hc]; exact e2, x1.trans x2⟩
      | some u =>
        rw [hw] at g2
        obtain ⟨s2, e2, x2⟩ := g2
        exact ⟨s2, by rw [hb, e1]; simp only [if_pos hc]; exact e2, x1.trans x2⟩
    · simp only [if_neg hc]
      exact ⟨s1, by rw [hb, e1]; simp only [if_neg hc]; rfl, x1⟩

end Verif
