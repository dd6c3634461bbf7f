import Verif.Spec.Tree
import Verif.Proofs.Tree
import Verif.Props.Files
/-!
# Properties of the wildcard tree and of root maps (C34, C35, and C52 for whole directories)
-/

namespace Verif.Props
open Verif Verif.Spec

variable {α : Type}

/-! ## C34 The tree agrees with its name map -/

private theorem built (m : Dict α) (hm : ∀ q ∈ m, TidyName q.1) (hd : (m.map (·.1)).Nodup) :
    TreeNode.WF [] (treeFromMap m) ∧
      (TreeNode.partsWalk [] (treeFromMap m)).Perm (m.map fun q => (splitChar '/' q.1, q.2)) := by
  have := insert_all m (.mk [] [] [])
    (fun q hq => splitChar_segs q.1 (hm q hq).1 (hm q hq).2.1 (hm q hq).2.2) hd
    ⟨rfl, by simp, by simp [Dict.keys], trivial⟩ (by simp [TreeNode.partsWalk, TreeNode.partsChildren])
  simpa [treeFromMap, TreeNode.partsWalk, TreeNode.partsChildren] using this

/-- C34: walking the tree built from a map with tidy names lists the pairs of the map, each exactly
once, in some order. -/
theorem tree_walk (m : Dict α) (hm : ∀ q ∈ m, TidyName q.1) (hd : (m.map (·.1)).Nodup) :
    (Tree.fromMap m).root.walk.Perm m := by
  obtain ⟨w, pm⟩ := built m hm hd
  have e : (Tree.fromMap m).root.walk = (treeFromMap m).walk := rfl
  rw [e, walk_eq_parts _ [] (by simp) w]
  refine (pm.map _).trans ?_
  rw [List.map_map]
  have : ((fun q : List Str × α => (pyJoin ['/'] q.1, q.2)) ∘ fun q : Str × α => (splitChar '/' q.1, q.2)) = id := by
    funext q; simp [pyJoin_splitChar]
  rw [this, List.map_id]

/-- C34: the names listed by the tree are those of the map. -/
theorem tree_names (m : Dict α) (hm : ∀ q ∈ m, TidyName q.1) (hd : (m.map (·.1)).Nodup) :
    (Tree.fromMap m).root.walkNames.Perm (m.map (·.1)) := by
  rw [walkNames_eq]; exact (tree_walk m hm hd).map _

/-- C34: the map kept in the tree is the given one. -/
theorem tree_map (m : Dict α) : (Tree.fromMap m).map = m := by
  unfold Tree.fromMap
  cases m with
  | nil => rfl
  | cons q m => rfl

mutual
theorem reaches_parts : ∀ (n : TreeNode α) (pre parts : List Str) (c : α),
    Reaches n parts c ↔ (pre ++ parts, c) ∈ TreeNode.partsWalk pre n
  | .mk path ch colls, pre, parts, c => by
    simp only [TreeNode.partsWalk, List.mem_append, List.mem_map]
    constructor
    · rintro (h | ⟨h1, h2⟩)
      · exact .inl ⟨_, h, rfl⟩
      · exact .inr ((reaches_children ch pre _ c).1 ⟨_, _, _, rfl, h1, h2⟩)
    · rintro (⟨q, hq, e⟩ | h)
      · simp only [Prod.mk.injEq, List.append_cancel_left_eq] at e
        obtain ⟨rfl, rfl⟩ := e
        exact .here hq
      · obtain ⟨k, n, ps, rfl, h1, h2⟩ := (reaches_children ch pre parts c).2 h
        exact .down h1 h2
theorem reaches_children : ∀ (cs : List (Str × TreeNode α)) (pre parts : List Str) (c : α),
    (∃ k n ps, parts = k :: ps ∧ (k, n) ∈ cs ∧ Reaches n ps c) ↔
      (pre ++ parts, c) ∈ TreeNode.partsChildren pre cs
  | [], _, _, _ => by simp [TreeNode.partsChildren]
  | (k, n) :: cs, pre, parts, c => by
    simp only [TreeNode.partsChildren, List.mem_append]
    rw [← reaches_children cs pre parts c]
    constructor
    · rintro ⟨k', n', ps, rfl, hm, hr⟩
      rcases List.mem_cons.1 hm with e | hm
      · simp only [Prod.mk.injEq] at e
        obtain ⟨rfl, rfl⟩ := e
        left
        have := (reaches_parts n' (pre ++ [k']) ps c).1 hr
        simpa using this
      · exact .inr ⟨k', n', ps, rfl, hm, hr⟩
    · rintro (h | ⟨k', n', ps, rfl, hm, hr⟩)
      · obtain ⟨t, ht⟩ := parts_prefix n (pre ++ [k]) _ h
        have hparts : parts = k :: t := by simpa using ht.symm
        subst hparts
        refine ⟨k, n, t, rfl, by simp, (reaches_parts n (pre ++ [k]) t c).2 ?_⟩
        simpa using h
      · exact ⟨k', n', ps, rfl, by simp [hm], hr⟩
end

/-- C34: going down the tree along the parts of a name finds exactly the collection of that name. -/
theorem tree_reaches (m : Dict α) (hm : ∀ q ∈ m, TidyName q.1) (hd : (m.map (·.1)).Nodup)
    (parts : List Str) (c : α) :
    Reaches (Tree.fromMap m).root parts c ↔
      ∃ n, (n, c) ∈ m ∧ splitChar '/' n = parts := by
  obtain ⟨-, pm⟩ := built m hm hd
  rw [reaches_parts _ [], List.nil_append]
  have e : (Tree.fromMap m).root = treeFromMap m := rfl
  rw [e, pm.mem_iff, List.mem_map]
  constructor
  · rintro ⟨q, hq, e⟩
    simp only [Prod.mk.injEq] at e
    obtain ⟨rfl, rfl⟩ := e
    exact ⟨q.1, hq, rfl⟩
  · rintro ⟨n, hn, rfl⟩; exact ⟨_, hn, rfl⟩

/-- The hypotheses are met: a map with nested names, one of them also a directory of others. -/
example : (∀ q ∈ [(c!"a", 1), (c!"a/b", 2), (c!"x/y/z", 3), (c!"a/c", 4)], TidyName q.1) ∧
    (([(c!"a", 1), (c!"a/b", 2), (c!"x/y/z", 3), (c!"a/c", 4)] : Dict Nat).map (·.1)).Nodup ∧
    (Tree.fromMap [(c!"a", 1), (c!"a/b", 2), (c!"x/y/z", 3), (c!"a/c", 4)]).root.walk =
      [(c!"a", 1), (c!"a/b", 2), (c!"a/c", 4), (c!"x/y/z", 3)] := by
  unfold TidyName; decide +kernel

/-- Names that are not tidy are not listed as they were given. -/
theorem untidy_name_changes :
    (Tree.fromMap [(c!"/a", 1)]).map = [(c!"/a", 1)] ∧
    (Tree.fromMap [(c!"/a", 1)]).root.walk = [(c!"a", 1)] := by
  decide +kernel

/-! ## C35 Root maps -/

/-- C35: of two groups of roots, the later one decides about every name it provides. -/
theorem later_root_wins (lib : Lib) (fs : FNode) (r₁ r₂ : RootMap) (n : Str) :
    (rootMapColls lib fs (r₁ ++ r₂)).get n =
      ((rootMapColls lib fs r₂).get n).or ((rootMapColls lib fs r₁).get n) := by
  unfold rootMapColls rootMapPairs
  rw [List.flatMap_append, Dict.update_append, Dict.get_update]
  cases (Dict.update [] (List.flatMap _ r₂)).get n <;> rfl

/-- C35: likewise for the items given for one root. -/
theorem later_item_wins (lib : Lib) (fs : FNode) (p : Str) (i₁ i₂ : List RootItem) (n : Str) :
    (rootMapColls lib fs [(p, i₁ ++ i₂)]).get n =
      ((rootMapColls lib fs [(p, i₂)]).get n).or ((rootMapColls lib fs [(p, i₁)]).get n) := by
  unfold rootMapColls rootMapPairs
  simp only [List.flatMap_cons, List.flatMap_nil, List.append_nil]
  rw [List.flatMap_append, Dict.update_append, Dict.get_update]
  cases (Dict.update [] (List.flatMap _ i₂)).get n <;> rfl

private theorem tidy_ends (s : Str) (h : TidyName s) (hs : s ≠ []) :
    (∃ c t, s = c :: t ∧ c ≠ '/') ∧ (∃ t c, s = t ++ [c] ∧ c ≠ '/') := by
  constructor
  · cases s with
    | nil => exact absurd rfl hs
    | cons c t => exact ⟨c, t, rfl, fun e => h.2.1 (e ▸ ⟨t, rfl⟩)⟩
  · obtain ⟨t, c, rfl⟩ : ∃ t c, s = t ++ [c] := ⟨_, _, (List.dropLast_concat_getLast hs).symm⟩
    exact ⟨t, c, rfl, fun e => h.2.2 (e ▸ ⟨t, rfl⟩)⟩

/-- C35: the full name of a collection is its name below its root. -/
theorem qualified_name (p k : Str) (hp : TidyName p) (hk : TidyName k) :
    Qualified p k (combineNameParts [p, k]) := by
  have strip_tidy : ∀ s, s ≠ [] → TidyName s → stripP (· == '/') s = s ∧
      stripP (· == '/') ('/' :: s) = s ∧ stripP (· == '/') (s ++ ['/']) = s := by
    intro s hs h
    obtain ⟨⟨c, t, e1, hc⟩, ⟨t', c', e2, hc'⟩⟩ := tidy_ends s h hs
    have hc1 : (c == '/') = false := by simpa using hc
    have hc2 : (c' == '/') = false := by simpa using hc'
    have hr : rstripP (· == '/') s = s := by
      rw [e2, rstripP, List.reverse_append]; simp [hc2]
    have hr2 : rstripP (· == '/') (s ++ ['/']) = s := by
      rw [e2, rstripP]; simp [hc2]
    refine ⟨?_, ?_, ?_⟩
    · rw [stripP, show lstripP (· == '/') s = s by rw [e1]; simp [lstripP, hc1], hr]
    · rw [stripP, show lstripP (· == '/') ('/' :: s) = s by
        rw [e1]; simp [lstripP, hc1], hr]
    · rw [stripP, show lstripP (· == '/') (s ++ ['/']) = s ++ ['/'] by
        rw [e1]; simp [lstripP, hc1], hr2]
  have strip_mid : p ≠ [] → k ≠ [] → stripP (· == '/') (p ++ '/' :: k) = p ++ '/' :: k := by
    intro hp0 hk0
    obtain ⟨⟨c, t, e1, hc⟩, -⟩ := tidy_ends p hp hp0
    obtain ⟨-, ⟨t', c', e2, hc'⟩⟩ := tidy_ends k hk hk0
    have hc1 : (c == '/') = false := by simpa using hc
    have hc2 : (c' == '/') = false := by simpa using hc'
    rw [stripP, show lstripP (· == '/') (p ++ '/' :: k) = p ++ '/' :: k by
      rw [e1]; simp [lstripP, hc1]]
    rw [e2, rstripP]; simp [hc2]
  unfold Qualified combineNameParts
  by_cases hp0 : p = []
  · left; subst hp0
    refine ⟨rfl, ?_⟩
    by_cases hk0 : k = []
    · subst hk0; decide
    · simpa [pyJoin] using (strip_tidy k hk0 hk).2.1
  · right
    by_cases hk0 : k = []
    · left; subst hk0
      exact ⟨rfl, by simpa [pyJoin] using (strip_tidy p hp0 hp).2.2⟩
    · right
      exact ⟨hp0, hk0, by simpa [pyJoin] using strip_mid hp0 hk0⟩

/-- C35: every name provided by some item of some root is present, and no other. -/
theorem root_map_names (lib : Lib) (fs : FNode) (roots : RootMap) (n : Str) :
    n ∈ (rootMapColls lib fs roots).map (·.1) ↔
      ∃ p items item k c, (p, items) ∈ roots ∧ item ∈ items ∧ (k, c) ∈ rootItemMap lib fs item ∧
        n = combineNameParts [p, k] := by
  have := Dict.mem_keys_update (rootMapPairs lib fs roots) [] n
  unfold rootMapColls
  unfold Dict.keys at this
  rw [this]
  simp only [List.map_nil, List.not_mem_nil, false_or, rootMapPairs, List.mem_map, List.mem_flatMap]
  constructor
  · rintro ⟨x, ⟨r, hr, item, hi, q, hq, rfl⟩, rfl⟩
    exact ⟨r.1, r.2, item, q.1, q.2, hr, hi, hq, rfl⟩
  · rintro ⟨p, items, item, k, c, hr, hi, hq, rfl⟩
    exact ⟨_, ⟨(p, items), hr, item, hi, (k, c), hq, rfl⟩, rfl⟩

/-- C35: no name is listed twice. -/
theorem root_map_nodup (lib : Lib) (fs : FNode) (roots : RootMap) :
    ((rootMapColls lib fs roots).map (·.1)).Nodup :=
  Dict.nodup_update _ [] (by simp [Dict.keys])

/-- C35: a root with a single item provides exactly the collections of that item, each under its
qualified name. -/
theorem single_item (lib : Lib) (fs : FNode) (p : Str) (item : RootItem) (k : Str)
    (hp : TidyName p) (hk : TidyName k) (hall : ∀ q ∈ rootItemMap lib fs item, TidyName q.1 ∧ q.1 ≠ [])
    (hd : ((rootItemMap lib fs item).map (·.1)).Nodup) (hk0 : k ≠ []) (n : Str) (hn : Qualified p k n) :
    (rootMapColls lib fs [(p, [item])]).get n = (rootItemMap lib fs item).get k := by
  have hinj : ∀ a b, a ≠ [] → b ≠ [] → TidyName a → TidyName b →
      combineNameParts [p, a] = combineNameParts [p, b] → a = b := by
    intro a b ha hb hta htb e
    rcases qualified_name p a hp hta with ⟨h1, h2⟩ | ⟨h, -⟩ | ⟨h0, -, h2⟩
    · rcases qualified_name p b hp htb with ⟨-, h4⟩ | ⟨h, -⟩ | ⟨h, -⟩
      · rw [← h2, ← h4, e]
      · exact absurd h hb
      · exact absurd h1 h
    · exact absurd h ha
    · rcases qualified_name p b hp htb with ⟨h, -⟩ | ⟨h, -⟩ | ⟨-, -, h4⟩
      · exact absurd h h0
      · exact absurd h hb
      · rw [h2, h4] at e
        simpa using e
  have hnk : n = combineNameParts [p, k] := by
    rcases qualified_name p k hp hk with ⟨h1, h2⟩ | ⟨h, -⟩ | ⟨h0, -, h2⟩
    · rcases hn with ⟨-, h4⟩ | ⟨h, -⟩ | ⟨h, -⟩
      · rw [h4, h2]
      · exact absurd h hk0
      · exact absurd h1 h
    · exact absurd h hk0
    · rcases hn with ⟨h, -⟩ | ⟨h, -⟩ | ⟨-, -, h4⟩
      · exact absurd h h0
      · exact absurd h hk0
      · rw [h4, h2]
  subst hnk
  have hpairs : rootMapPairs lib fs [(p, [item])] =
      (rootItemMap lib fs item).map fun q => (combineNameParts [p, q.1], q.2) := by
    simp [rootMapPairs]
  have hnd : (((rootItemMap lib fs item).map fun q => (combineNameParts [p, q.1], q.2)).map (·.1)).Nodup := by
    have hpw := List.pairwise_map.1 hd
    rw [List.map_map, List.nodup_iff_pairwise_ne, List.pairwise_map]
    refine List.Pairwise.imp_of_mem ?_ hpw
    intro a b ha hb hne e
    exact hne (hinj _ _ (hall a ha).2 (hall b hb).2 (hall a ha).1 (hall b hb).1 e)
  unfold rootMapColls
  rw [hpairs, Dict.update_self _ [] (by simpa [Dict.keys] using hnd), List.nil_append]
  cases hg : (rootItemMap lib fs item).get k with
  | some c =>
    apply Dict.get_of_mem _ _ _ hnd
    exact List.mem_map.2 ⟨(k, c), Dict.get_mem _ _ _ hg, rfl⟩
  | none =>
    rw [Dict.get_none] at hg ⊢
    intro hm
    obtain ⟨x, hx, e⟩ := List.mem_map.1 hm
    obtain ⟨q, hq, rfl⟩ := List.mem_map.1 hx
    have := hinj _ _ (hall q hq).2 hk0 (hall q hq).1 hk e
    exact hg (List.mem_map.2 ⟨q, hq, this⟩)

/-- Two roots with the same prefix: the second one decides about `p/a`, both contribute. -/
example : rootMapColls demoLib (.dir [])
    [(c!"p", [.dict [(c!"a", [⟨c!"1", none⟩]), (c!"b", [⟨c!"2", none⟩])], .dict [(c!"a", [⟨c!"3", none⟩])]]),
      ([], [.dict [(c!"p/b", [⟨c!"4", none⟩])]])] =
    [(c!"p/a", .items [⟨c!"3", none⟩]), (c!"p/b", .items [⟨c!"4", none⟩])] := by
  decide +kernel

/-- The hypotheses of `single_item` are met. -/
example : TidyName c!"p/q" ∧ TidyName c!"a" ∧ Qualified c!"p/q" c!"a" c!"p/q/a" ∧
    rootItemMap demoLib (.dir []) (.dict [(c!"a", [⟨c!"1", none⟩]), (c!"b", [])]) =
      [(c!"a", .items [⟨c!"1", none⟩]), (c!"b", .items [])] := by
  unfold TidyName Qualified; decide +kernel

/-! ## C52 The names of a whole directory -/

/-- C52: a name is loaded from a directory exactly if one of its visible files provides it. -/
theorem directory_names (lib : Lib) (fs d : FNode) (root : Path) (hd : fs.at root = some d) (n : Str) :
    n ∈ (dirMap lib fs root).map (·.1) ↔
      ∃ rel contents, Visible d rel contents ∧ n ∈ (fileCollections lib root rel contents).map (·.1) := by
  have key : ∀ (files : List (Path × Option Str)) (m : Dict RawColl),
      n ∈ (files.foldl (fun m f => m.update (fileCollections lib root f.1 f.2)) m).map (·.1) ↔
        n ∈ m.map (·.1) ∨ ∃ f ∈ files, n ∈ (fileCollections lib root f.1 f.2).map (·.1) := by
    intro files
    induction files with
    | nil => intro m; simp
    | cons f files ih =>
      intro m
      rw [List.foldl_cons, ih]
      have := Dict.mem_keys_update (fileCollections lib root f.1 f.2) m n
      unfold Dict.keys at this
      rw [this]
      simp [or_assoc]
  simp only [dirMap, hd]
  rw [key]
  simp only [List.map_nil, List.not_mem_nil, false_or]
  constructor
  · rintro ⟨f, hf, h⟩; exact ⟨f.1, f.2, (walk_finds d f.1 f.2).1 hf, h⟩
  · rintro ⟨rel, c, hv, h⟩; exact ⟨(rel, c), (walk_finds d rel c).2 hv, h⟩

end Verif.Props
