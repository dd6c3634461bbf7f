import Verif.Model.Manager
import Verif.Proofs.Files
import Mathlib.Data.List.Perm.Basic
/-!
# Lemmas about dictionaries and the wildcard tree
-/

namespace Verif
open Spec

/-! ## Dictionaries -/

/-- The keys of a dictionary. -/
def Dict.keys {α : Type} (d : Dict α) : List Str := d.map (·.1)

theorem Dict.set_new {α : Type} (d : Dict α) (k : Str) (v : α) (h : k ∉ d.keys) :
    d.set k v = d ++ [(k, v)] := by
  induction d with
  | nil => rfl
  | cons p d ih =>
    obtain ⟨k', v'⟩ := p
    simp only [Dict.keys, List.map_cons, List.mem_cons, not_or] at h
    simp only [Dict.set, if_neg (Ne.symm h.1), List.cons_append]
    rw [ih h.2]

theorem Dict.keys_set_old {α : Type} (d : Dict α) (k : Str) (v : α) (h : k ∈ d.keys) :
    (d.set k v).keys = d.keys := by
  induction d with
  | nil => simp [Dict.keys] at h
  | cons p d ih =>
    obtain ⟨k', v'⟩ := p
    simp only [Dict.set]
    split
    · rename_i hk; simp [Dict.keys, hk]
    · rename_i hk
      simp only [Dict.keys, List.map_cons, List.mem_cons, Ne.symm hk, false_or] at ih h ⊢
      rw [ih h]

theorem Dict.keys_set_new {α : Type} (d : Dict α) (k : Str) (v : α) (h : k ∉ d.keys) :
    (d.set k v).keys = d.keys ++ [k] := by
  rw [Dict.set_new d k v h]; simp [Dict.keys]

theorem Dict.mem_keys_set {α : Type} (d : Dict α) (k n : Str) (v : α) :
    n ∈ (d.set k v).keys ↔ n ∈ d.keys ∨ n = k := by
  by_cases h : k ∈ d.keys
  · rw [Dict.keys_set_old d k v h]; exact ⟨.inl, fun hh => hh.elim id (fun e => e ▸ h)⟩
  · rw [Dict.keys_set_new d k v h]; simp

theorem Dict.nodup_set {α : Type} (d : Dict α) (k : Str) (v : α) (h : d.keys.Nodup) :
    (d.set k v).keys.Nodup := by
  by_cases hk : k ∈ d.keys
  · rw [Dict.keys_set_old d k v hk]; exact h
  · rw [Dict.keys_set_new d k v hk, List.nodup_append]
    exact ⟨h, by simp, by intro a ha b hb e; simp at hb; subst hb; exact hk (e ▸ ha)⟩

theorem Dict.get_set {α : Type} (d : Dict α) (k n : Str) (v : α) :
    (d.set k v).get n = if n = k then some v else d.get n := by
  induction d with
  | nil => by_cases h : n = k <;> simp [Dict.set, Dict.get, h, Ne.symm]
  | cons p d ih =>
    obtain ⟨k', v'⟩ := p
    simp only [Dict.set]
    split
    · rename_i h
      subst h
      simp only [Dict.get]
      by_cases h : n = k'
      · simp [h]
      · simp [h, Ne.symm h]
    · rename_i h
      simp only [Dict.get, ih]
      by_cases h1 : k' = n
      · subst h1; simp [h]
      · simp [h1]

theorem Dict.get_none {α : Type} (d : Dict α) (n : Str) : d.get n = none ↔ n ∉ d.keys := by
  induction d with
  | nil => simp [Dict.get, Dict.keys]
  | cons p d ih =>
    obtain ⟨k', v'⟩ := p
    simp only [Dict.get]
    split
    · rename_i h; simp [Dict.keys, h]
    · rename_i h; rw [ih]; simp [Dict.keys, Ne.symm h]

theorem Dict.get_mem {α : Type} (d : Dict α) (n : Str) (v : α) (h : d.get n = some v) : (n, v) ∈ d := by
  induction d with
  | nil => simp [Dict.get] at h
  | cons p d ih =>
    obtain ⟨k', v'⟩ := p
    simp only [Dict.get] at h
    split at h
    · rename_i hk; simp at h; simp [hk, h]
    · simp [ih h]

theorem Dict.get_of_mem {α : Type} (d : Dict α) (n : Str) (v : α) (hn : d.keys.Nodup) (h : (n, v) ∈ d) :
    d.get n = some v := by
  induction d with
  | nil => simp at h
  | cons p d ih =>
    obtain ⟨k', v'⟩ := p
    simp only [Dict.keys, List.map_cons, List.nodup_cons] at hn
    rcases List.mem_cons.1 h with e | h
    · simp only [Prod.mk.injEq] at e
      simp [Dict.get, e.1, e.2]
    · have : k' ≠ n := by
        rintro rfl
        exact hn.1 (List.mem_map.2 ⟨_, h, rfl⟩)
      simp only [Dict.get, if_neg this]
      exact ih hn.2 h

theorem Dict.get_update {α : Type} (pairs : List (Str × α)) (d : Dict α) (n : Str) :
    (d.update pairs).get n = match (Dict.update [] pairs).get n with
      | some v => some v
      | none => d.get n := by
  have key : ∀ (pairs : List (Str × α)) (d : Dict α),
      (d.update pairs).get n = match (pairs.reverse.find? (fun p => p.1 == n)) with
        | some p => some p.2
        | none => d.get n := by
    intro pairs
    induction pairs with
    | nil => intro d; rfl
    | cons p pairs ih =>
      intro d
      have e : d.update (p :: pairs) = (d.set p.1 p.2).update pairs := rfl
      rw [e, ih, List.reverse_cons, List.find?_append]
      cases hf : pairs.reverse.find? (fun p => p.1 == n) with
      | some q => simp
      | none =>
        simp only [Option.none_or, List.find?_cons, List.find?_nil]
        rw [Dict.get_set]
        by_cases h : n = p.1
        · simp [h]
        · have h2 : (p.1 == n) = false := by simpa using Ne.symm h
          simp [h, h2]
  rw [key pairs d, key pairs []]
  cases pairs.reverse.find? (fun p => p.1 == n) <;> simp [Dict.get]

theorem Dict.update_append {α : Type} (d : Dict α) (a b : List (Str × α)) :
    d.update (a ++ b) = (d.update a).update b := by
  simp [Dict.update, List.foldl_append]

theorem Dict.nodup_update {α : Type} (pairs : List (Str × α)) (d : Dict α) (h : d.keys.Nodup) :
    (d.update pairs).keys.Nodup := by
  induction pairs generalizing d with
  | nil => exact h
  | cons p pairs ih => exact ih _ (Dict.nodup_set d p.1 p.2 h)

theorem Dict.mem_keys_update {α : Type} (pairs : List (Str × α)) (d : Dict α) (n : Str) :
    n ∈ (d.update pairs).keys ↔ n ∈ d.keys ∨ n ∈ pairs.map (·.1) := by
  induction pairs generalizing d with
  | nil => simp [Dict.update]
  | cons p pairs ih =>
    have e : d.update (p :: pairs) = (d.set p.1 p.2).update pairs := rfl
    rw [e, ih, Dict.mem_keys_set]
    simp [or_assoc]

theorem Dict.update_self {α : Type} (m d : Dict α) (h : (d.keys ++ m.keys).Nodup) : d.update m = d ++ m := by
  induction m generalizing d with
  | nil => simp [Dict.update]
  | cons p m ih =>
    have e : d.update (p :: m) = (d.set p.1 p.2).update m := rfl
    have hk : p.1 ∉ d.keys := by
      rw [List.nodup_append] at h
      intro hh
      exact h.2.2 _ hh _ (by simp [Dict.keys]) rfl
    rw [e, Dict.set_new d p.1 p.2 hk, ih]
    · simp
    · simpa [Dict.keys] using h

/-! ## The tree -/

/-- A part of a name: not empty and without slashes. -/
def Seg (s : Str) : Prop := s ≠ [] ∧ '/' ∉ s

variable {α : Type}

mutual
/-- The collections of a node with the parts of their names. -/
def TreeNode.partsWalk (pre : List Str) : TreeNode α → List (List Str × α)
  | .mk _ ch colls => colls.map (fun q => (pre ++ [q.1], q.2)) ++ TreeNode.partsChildren pre ch
/-- The same for the children. -/
def TreeNode.partsChildren (pre : List Str) : List (Str × TreeNode α) → List (List Str × α)
  | [] => []
  | (k, c) :: cs => TreeNode.partsWalk (pre ++ [k]) c ++ TreeNode.partsChildren pre cs
end

mutual
/-- Paths of nodes fit and keys are proper and distinct. -/
def TreeNode.WF (pre : List Str) : TreeNode α → Prop
  | .mk path ch colls => path = pyJoin ['/'] pre ∧ (∀ q ∈ colls, Seg q.1 ∨ (pre = [] ∧ q.1 = [])) ∧
      colls.keys.Nodup ∧ TreeNode.WFC pre ch
/-- The same for the children. -/
def TreeNode.WFC (pre : List Str) : List (Str × TreeNode α) → Prop
  | [] => True
  | (k, c) :: cs => Seg k ∧ TreeNode.WF (pre ++ [k]) c ∧ (∀ q ∈ cs, q.1 ≠ k) ∧ TreeNode.WFC pre cs
end

theorem combine_snoc (pre : List Str) (k : Str) (hp : ∀ s ∈ pre, Seg s)
    (hk : Seg k ∨ (pre = [] ∧ k = [])) :
    combineNameParts [pyJoin ['/'] pre, k] = pyJoin ['/'] (pre ++ [k]) := by
  rcases hk with hk | ⟨rfl, rfl⟩
  · have hall : ∀ s ∈ pre ++ [k], s ≠ [] ∧ '/' ∉ s := by
      intro s hs
      rcases List.mem_append.1 hs with hs | hs
      · exact hp s hs
      · simp at hs; subst hs; exact hk
    have hjoin : pre ≠ [] → pyJoin ['/'] (pre ++ [k]) = pyJoin ['/'] pre ++ '/' :: k := by
      intro hz
      clear hp hall
      induction pre with
      | nil => exact absurd rfl hz
      | cons x r ih =>
        cases r with
        | nil => simp [pyJoin]
        | cons y r =>
          have := ih (by simp)
          simp only [List.cons_append, pyJoin] at this ⊢
          rw [this]; simp
    by_cases hz : pre = []
    · subst hz
      simp only [combineNameParts, pyJoin, List.nil_append]
      have := strip_pyJoin [k] hall ['/'] [] (.inr rfl) (.inl rfl) (by simp)
      simpa [pyJoin] using this
    · have := strip_pyJoin (pre ++ [k]) hall [] [] (.inl rfl) (.inl rfl) (by simp)
      simp only [List.nil_append, List.append_nil] at this
      rw [← this, hjoin hz]
      simp [combineNameParts, pyJoin]
  · decide

mutual
theorem walk_eq_parts : ∀ (n : TreeNode α) (pre : List Str), (∀ s ∈ pre, Seg s) → TreeNode.WF pre n →
    n.walk = (TreeNode.partsWalk pre n).map fun q => (pyJoin ['/'] q.1, q.2)
  | .mk path ch colls, pre, hp, h => by
    obtain ⟨rfl, hk, -, hc⟩ := h
    simp only [TreeNode.walk, TreeNode.qualify, TreeNode.path, TreeNode.partsWalk, List.map_append, List.map_map]
    rw [walkChildren_eq_parts ch pre hp hc]
    congr 1
    apply List.map_congr_left
    intro q hq
    simp [combine_snoc pre q.1 hp (hk q hq)]
theorem walkChildren_eq_parts : ∀ (cs : List (Str × TreeNode α)) (pre : List Str), (∀ s ∈ pre, Seg s) →
    TreeNode.WFC pre cs →
    TreeNode.walkChildren cs = (TreeNode.partsChildren pre cs).map fun q => (pyJoin ['/'] q.1, q.2)
  | [], _, _, _ => by simp [TreeNode.walkChildren, TreeNode.partsChildren]
  | (k, c) :: cs, pre, hp, h => by
    obtain ⟨hk, hc, -, hcs⟩ := h
    simp only [TreeNode.walkChildren, TreeNode.partsChildren, List.map_append]
    rw [walk_eq_parts c (pre ++ [k]) (by
      intro s hs
      rcases List.mem_append.1 hs with hs | hs
      · exact hp s hs
      · simp at hs; subst hs; exact hk) hc, walkChildren_eq_parts cs pre hp hcs]
end

mutual
theorem parts_prefix : ∀ (n : TreeNode α) (pre : List Str) (q : List Str × α),
    q ∈ TreeNode.partsWalk pre n → pre <+: q.1
  | .mk path ch colls, pre, q, h => by
    simp only [TreeNode.partsWalk, List.mem_append, List.mem_map] at h
    rcases h with ⟨x, -, rfl⟩ | h
    · exact ⟨[x.1], rfl⟩
    · obtain ⟨k, -, hk⟩ := partsChildren_prefix ch pre q h
      exact (List.prefix_append pre [k]).trans hk
theorem partsChildren_prefix : ∀ (cs : List (Str × TreeNode α)) (pre : List Str) (q : List Str × α),
    q ∈ TreeNode.partsChildren pre cs → ∃ k, k ∈ cs.map (·.1) ∧ pre ++ [k] <+: q.1
  | [], _, _, h => by simp [TreeNode.partsChildren] at h
  | (k, c) :: cs, pre, q, h => by
    simp only [TreeNode.partsChildren, List.mem_append] at h
    rcases h with h | h
    · exact ⟨k, by simp, parts_prefix c (pre ++ [k]) q h⟩
    · obtain ⟨k', hk', h'⟩ := partsChildren_prefix cs pre q h
      exact ⟨k', by simp [hk'], h'⟩
end

theorem wfc_mem_atChild (part : Str) (new : TreeNode α) (f : TreeNode α → TreeNode α) (cs : List (Str × TreeNode α))
    (q : Str × TreeNode α) (h : q ∈ TreeNode.atChild part new f cs) :
    q.1 = part ∨ q ∈ cs := by
  induction cs with
  | nil => simp [TreeNode.atChild] at h; exact .inl (by rw [h])
  | cons p cs ih =>
    obtain ⟨n, child⟩ := p
    simp only [TreeNode.atChild] at h
    split at h
    · rename_i hn
      rcases List.mem_cons.1 h with rfl | h
      · exact .inl hn
      · exact .inr (by simp [h])
    · rcases List.mem_cons.1 h with rfl | h
      · exact .inr (by simp)
      · exact (ih h).imp id (fun h => by simp [h])

/-- Inserting under a new name adds exactly that name. -/
theorem insert_parts (c : α) : ∀ (parts : List Str) (pre : List Str) (n : TreeNode α),
    parts ≠ [] → ((∀ s ∈ parts, Seg s) ∨ (pre = [] ∧ parts = [[]])) → (∀ s ∈ pre, Seg s) →
    TreeNode.WF pre n → (pre ++ parts) ∉ (TreeNode.partsWalk pre n).map (·.1) →
    TreeNode.WF pre (TreeNode.insert c parts n) ∧
      (TreeNode.partsWalk pre (TreeNode.insert c parts n)).Perm ((pre ++ parts, c) :: TreeNode.partsWalk pre n)
  | [], _, _, h, _, _, _, _ => absurd rfl h
  | [last], pre, .mk path ch colls, _, hseg, hp, ⟨h1, h2, h3, h4⟩, hn => by
    have hk : last ∉ colls.keys := by
      intro hm
      apply hn
      obtain ⟨q, hq, rfl⟩ := List.mem_map.1 hm
      simp only [TreeNode.partsWalk, List.map_append, List.mem_append, List.mem_map]
      exact .inl ⟨(pre ++ [q.1], q.2), ⟨q, hq, rfl⟩, rfl⟩
    have hseg' : Seg last ∨ (pre = [] ∧ last = []) := by
      rcases hseg with hs | ⟨hs1, hs2⟩
      · exact .inl (hs last (by simp))
      · simp at hs2; exact .inr ⟨hs1, hs2⟩
    simp only [TreeNode.insert, TreeNode.qualify, TreeNode.path, TreeNode.WF, TreeNode.partsWalk]
    refine ⟨⟨h1, ?_, Dict.nodup_set _ _ _ h3, h4⟩, ?_⟩
    · rw [Dict.set_new _ _ _ hk]
      intro q hq
      rcases List.mem_append.1 hq with hq | hq
      · exact h2 q hq
      · simp at hq; subst hq; exact hseg'
    · rw [Dict.set_new _ _ _ hk, List.map_append, List.append_assoc]
      simp only [List.map_cons, List.map_nil, List.singleton_append]
      exact List.perm_middle
  | part :: p :: parts, pre, .mk path ch colls, _, hseg, hp, ⟨h1, h2, h3, h4⟩, hn => by
    have hseg' : ∀ s ∈ part :: p :: parts, Seg s := by
      rcases hseg with hs | ⟨-, hs⟩
      · exact hs
      · simp at hs
    have hpart := hseg' part (by simp)
    have hrest : ∀ s ∈ p :: parts, Seg s := fun s hs => hseg' s (by simp at hs ⊢; exact .inr hs)
    have hpre' : ∀ s ∈ pre ++ [part], Seg s := by
      intro s hs
      rcases List.mem_append.1 hs with hs | hs
      · exact hp s hs
      · simp at hs; subst hs; exact hpart
    have happ : pre ++ [part] ++ (p :: parts) = pre ++ part :: p :: parts := by simp
    have hnc : (pre ++ part :: p :: parts) ∉ (TreeNode.partsChildren pre ch).map (·.1) := by
      intro hm; apply hn
      simp only [TreeNode.partsWalk, List.map_append, List.mem_append]
      exact .inr hm
    have key : ∀ cs : List (Str × TreeNode α), TreeNode.WFC pre cs →
        (pre ++ part :: p :: parts) ∉ (TreeNode.partsChildren pre cs).map (·.1) →
        TreeNode.WFC pre (TreeNode.atChild part (.mk (combineNameParts [path, part]) [] []) (TreeNode.insert c (p :: parts)) cs) ∧
        (TreeNode.partsChildren pre (TreeNode.atChild part (.mk (combineNameParts [path, part]) [] []) (TreeNode.insert c (p :: parts)) cs)).Perm
          ((pre ++ part :: p :: parts, c) :: TreeNode.partsChildren pre cs) := by
      intro cs
      induction cs with
      | nil =>
        intro _ _
        have hnew : TreeNode.WF (α := α) (pre ++ [part]) (.mk (combineNameParts [path, part]) [] []) := by
          refine ⟨?_, by simp, by simp [Dict.keys], trivial⟩
          rw [h1]; exact combine_snoc pre part hp (.inl hpart)
        obtain ⟨w, pm⟩ := insert_parts c (p :: parts) (pre ++ [part]) _ (by simp) (.inl hrest) hpre' hnew
          (by simp [TreeNode.partsWalk, TreeNode.partsChildren])
        simp only [TreeNode.atChild, TreeNode.WFC, TreeNode.partsChildren]
        refine ⟨⟨hpart, w, by simp, trivial⟩, ?_⟩
        rw [happ] at pm
        simpa [TreeNode.partsWalk, TreeNode.partsChildren] using pm
      | cons x cs ih =>
        obtain ⟨k, child⟩ := x
        intro ⟨hk, hw, hd, hr⟩ hn
        simp only [TreeNode.partsChildren, List.map_append, List.mem_append, not_or] at hn
        simp only [TreeNode.atChild]
        by_cases hkp : k = part
        · subst hkp
          rw [if_pos rfl]
          obtain ⟨w, pm⟩ := insert_parts c (p :: parts) (pre ++ [k]) child (by simp) (.inl hrest) hpre' hw
            (by rw [happ]; exact hn.1)
          rw [happ] at pm
          refine ⟨⟨hk, w, hd, hr⟩, ?_⟩
          simp only [TreeNode.partsChildren]
          exact pm.append_right _
        · rw [if_neg hkp]
          obtain ⟨w, pm⟩ := ih hr hn.2
          refine ⟨⟨hk, hw, ?_, w⟩, ?_⟩
          · intro q hq
            rcases wfc_mem_atChild part _ _ cs q hq with e | hq
            · rw [e]; exact Ne.symm hkp
            · exact hd q hq
          · simp only [TreeNode.partsChildren]
            exact (pm.append_left _).trans List.perm_middle
    obtain ⟨w, pm⟩ := key ch h4 hnc
    simp only [TreeNode.insert, TreeNode.qualify, TreeNode.path, TreeNode.WF, TreeNode.partsWalk]
    refine ⟨⟨h1, h2, h3, w⟩, ?_⟩
    exact (pm.append_left _).trans List.perm_middle

/-- Splitting a joined name. -/
theorem splitChar_pyJoin (segs : List Str) (hne : segs ≠ []) (h : ∀ s ∈ segs, '/' ∉ s) :
    splitChar '/' (pyJoin ['/'] segs) = segs := by
  have hno : ∀ l : Str, '/' ∉ l → ∀ x ∈ l, (fun y : Char => y == '/') x = false := by
    intro l hl x hx
    simp only [beq_eq_false_iff_ne]
    exact fun e => hl (e ▸ hx)
  induction segs with
  | nil => exact absurd rfl hne
  | cons x r ih =>
    cases r with
    | nil => exact splitAt1_none _ x (hno x (h x (by simp)))
    | cons y r =>
      have e : pyJoin ['/'] (x :: y :: r) = x ++ '/' :: pyJoin ['/'] (y :: r) := by simp [pyJoin]
      rw [e, splitChar, splitAt1_sep _ x '/' _ (hno x (h x (by simp))) rfl]
      exact congrArg _ (ih (by simp) (fun s hs => h s (by simp at hs ⊢; exact .inr hs)))

theorem pyJoin_splitChar (s : Str) : pyJoin ['/'] (splitChar '/' s) = s := by
  unfold splitChar
  induction s with
  | nil => rfl
  | cons c s ih =>
    simp only [splitAt1]
    split
    · rename_i hc
      simp at hc; subst hc
      rw [pyJoin_cons _ _ _ (splitAt1_ne_nil _ _), ih]; rfl
    · cases hsp : splitAt1 (fun x => x == '/') s with
      | nil => exact absurd hsp (splitAt1_ne_nil _ _)
      | cons w ws =>
        rw [hsp] at ih
        simp only [consHead]
        cases ws with
        | nil => simpa [pyJoin] using ih
        | cons v ws => simp only [pyJoin, List.cons_append] at ih ⊢; rw [ih]

/-- Folding insertion over a map. -/
theorem insert_all (m : List (Str × α)) : ∀ (root : TreeNode α),
    (∀ q ∈ m, (∀ s ∈ splitChar '/' q.1, Seg s) ∨ splitChar '/' q.1 = [[]]) →
    (m.map (·.1)).Nodup → TreeNode.WF [] root →
    (∀ q ∈ m, splitChar '/' q.1 ∉ (TreeNode.partsWalk [] root).map (·.1)) →
    TreeNode.WF [] (m.foldl (fun root q => TreeNode.insert q.2 (splitChar '/' q.1) root) root) ∧
      (TreeNode.partsWalk [] (m.foldl (fun root q => TreeNode.insert q.2 (splitChar '/' q.1) root) root)).Perm
        (m.map (fun q => (splitChar '/' q.1, q.2)) ++ TreeNode.partsWalk [] root) := by
  induction m with
  | nil => intro root _ _ hw _; exact ⟨hw, by simp⟩
  | cons q m ih =>
    intro root hseg hnd hw hnew
    simp only [List.map_cons, List.nodup_cons] at hnd
    obtain ⟨w, pm⟩ := insert_parts q.2 (splitChar '/' q.1) [] root (splitAt1_ne_nil _ _)
      ((hseg q (by simp)).imp id (fun e => ⟨rfl, e⟩)) (by simp) hw (hnew q (by simp))
    obtain ⟨w', pm'⟩ := ih _ (fun x hx => hseg x (by simp [hx])) hnd.2 w (by
      intro x hx hm
      rw [(pm.map _).mem_iff] at hm
      simp only [List.nil_append, List.map_cons, List.mem_cons] at hm
      rcases hm with hm | hm
      · apply hnd.1
        have : x.1 = q.1 := by rw [← pyJoin_splitChar x.1, hm, pyJoin_splitChar]
        exact List.mem_map.2 ⟨x, hx, this⟩
      · exact hnew x (by simp [hx]) hm)
    refine ⟨w', pm'.trans ?_⟩
    refine (pm.append_left _).trans ?_
    simp only [List.nil_append, List.map_cons, List.cons_append]
    exact List.perm_middle

mutual
theorem walkNames_eq : ∀ n : TreeNode α, n.walkNames = n.walk.map (·.1)
  | .mk path ch colls => by
    simp only [TreeNode.walkNames, TreeNode.walk, List.map_append, List.map_map]
    rw [walkChildNames_eq ch]; rfl
theorem walkChildNames_eq : ∀ cs : List (Str × TreeNode α),
    TreeNode.walkChildNames cs = (TreeNode.walkChildren cs).map (·.1)
  | [] => rfl
  | (k, c) :: cs => by
    simp only [TreeNode.walkChildNames, TreeNode.walkChildren, List.map_append]
    rw [walkNames_eq c, walkChildNames_eq cs]
end

/-- The parts of a name without superfluous slashes. -/
theorem splitChar_segs (n : Str) (h1 : ¬ ['/', '/'] <:+: n) (h2 : ¬ ['/'] <+: n) (h3 : ¬ ['/'] <:+ n) :
    (∀ s ∈ splitChar '/' n, Seg s) ∨ splitChar '/' n = [[]] := by
  have key : ∀ n : Str, ¬ ['/', '/'] <:+: n → ¬ ['/'] <:+ n → n ≠ [] →
      (∀ s ∈ (splitChar '/' n).tail, Seg s) ∧ ∀ s, (splitChar '/' n).head? = some s →
        '/' ∉ s ∧ (s = [] → ['/'] <+: n) := by
    intro n
    unfold splitChar
    induction n with
    | nil => intro _ _ h; exact absurd rfl h
    | cons c n ih =>
      intro h1 h3 _
      by_cases hn : n = []
      · subst hn
        have hc : c ≠ '/' := by rintro rfl; exact h3 ⟨[], rfl⟩
        simp [splitAt1, hc, consHead, Ne.symm hc]
      · have h1' : ¬ ['/', '/'] <:+: n := fun ⟨a, b, e⟩ => h1 ⟨c :: a, b, by simp [← e]⟩
        have h3' : ¬ ['/'] <:+ n := fun ⟨a, e⟩ => h3 ⟨c :: a, by simp [← e]⟩
        obtain ⟨ht, hh⟩ := ih h1' h3' hn
        cases hsp : splitAt1 (fun x => x == '/') n with
        | nil => exact absurd hsp (splitAt1_ne_nil _ _)
        | cons w ws =>
          rw [hsp] at ht hh
          obtain ⟨hw1, hw2⟩ := hh w rfl
          simp only [splitAt1, hsp]
          by_cases hc : c = '/'
          · subst hc
            simp only [beq_self_eq_true, if_true, List.tail_cons, List.head?_cons]
            refine ⟨?_, ?_⟩
            · intro s hs
              rcases List.mem_cons.1 hs with rfl | hs
              · refine ⟨fun e => ?_, hw1⟩
                obtain ⟨t, rfl⟩ := hw2 e
                exact h1 ⟨[], t, rfl⟩
              · exact ht s hs
            · intro s hs
              simp at hs; subst hs
              exact ⟨by simp, fun _ => ⟨n, rfl⟩⟩
          · have hb : (c == '/') = false := by simpa using hc
            simp only [hb, consHead]
            refine ⟨ht, ?_⟩
            intro s hs
            simp at hs; subst hs
            exact ⟨by simp [Ne.symm hc, hw1], by simp⟩
  by_cases hn : n = []
  · subst hn; exact .inr rfl
  · left
    obtain ⟨ht, hh⟩ := key n h1 h3 hn
    cases hsp : splitChar '/' n with
    | nil => exact absurd hsp (splitAt1_ne_nil _ _)
    | cons w ws =>
      rw [hsp] at ht hh
      intro s hs
      rcases List.mem_cons.1 hs with rfl | hs
      · obtain ⟨a, b⟩ := hh s rfl
        exact ⟨fun e => h2 (b e), a⟩
      · exact ht s hs

end Verif
