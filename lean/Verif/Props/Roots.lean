import Verif.Props.Tree
import Verif.Props.Collections
/-!
# What a manager is made from (C35)
-/

namespace Verif.Props
open Verif Verif.Spec

variable {R : Type}

/-- `Provides lib fs item k`: an item of a root map provides the name `k`: it is a dictionary with that key, or the path
of a directory with a visible file that provides the name. -/
inductive Provides (lib : Lib) (fs : FNode) : RootItem → Str → Prop
  | key {d k items} : (k, items) ∈ d → Provides lib fs (.dict d) k
  | file {p es rel contents k} : fs.at p = some (.dir es) → Visible (.dir es) rel contents →
      k ∈ (fileCollections lib p rel contents).map (·.1) → Provides lib fs (.path p) k

/-- C35: an item that is a dictionary provides its keys; one that is the path of a directory the names of its files; the
path of a file, or of nothing, provides no name. -/
theorem root_item_names (lib : Lib) (fs : FNode) (item : RootItem) (k : Str) :
    k ∈ (rootItemMap lib fs item).map (·.1) ↔ Provides lib fs item k := by
  cases item with
  | dict d =>
    simp only [rootItemMap, List.map_map, List.mem_map, Function.comp_apply]
    constructor
    · rintro ⟨q, hq, rfl⟩; exact .key hq
    · intro h; cases h with | key h => exact ⟨_, h, rfl⟩
  | path p =>
    have no : (∀ es, fs.at p ≠ some (.dir es)) → ¬ Provides lib fs (.path p) k := by
      intro hn h; cases h with | file h _ _ => exact hn _ h
    simp only [rootItemMap]
    split
    · rename_i es he
      rw [directory_names lib fs (.dir es) p he k]
      constructor
      · rintro ⟨rel, c, hv, h⟩; exact .file he hv h
      · intro h; cases h with
        | file h1 h2 h3 => rw [he] at h1; cases h1; exact ⟨_, _, h2, h3⟩
    · rename_i hn
      simp only [List.map_nil, List.not_mem_nil, false_iff]
      exact no fun es he => hn es he

/-- C35: the names a new manager lists are those its roots provide, each below the name of its root. -/
theorem manager_names (cfg : MgrCfg R) (fs : FNode) (rand : R) :
    ∃ names, seen (Mgr.collectionNames cfg (newMgr fs rand)) = some (.ok names) ∧ names.Nodup ∧
      ∀ n, n ∈ names ↔ ∃ p items item k, (p, items) ∈ cfg.roots ∧ item ∈ items ∧
        Provides cfg.lib fs item k ∧ n = combineNameParts [p, k] := by
  obtain ⟨names, h1, h2, h3⟩ := names_listed cfg (newMgr fs rand) [] (by simp)
  refine ⟨names, h1, h2, fun n => ?_⟩
  rw [h3]
  constructor
  · rintro ⟨p, items, item, k, c, hr, hi, hk, rfl⟩
    exact ⟨p, items, item, k, hr, hi, (root_item_names _ _ _ _).1 (List.mem_map.2 ⟨_, hk, rfl⟩), rfl⟩
  · rintro ⟨p, items, item, k, hr, hi, hk, rfl⟩
    obtain ⟨⟨_, c⟩, hc, rfl⟩ := List.mem_map.1 ((root_item_names _ _ _ _).2 hk)
    exact ⟨p, items, item, _, c, hr, hi, hc, rfl⟩

/-- C35: a path and a root map with an entry cannot both be given. -/
theorem path_and_roots (p : Path) (r : Str × List RootItem) (rs : RootMap) :
    managerRoots (some p) (some (r :: rs)) = .error .value := rfl

/-- C35: a root map with an entry, without a path, is the one used. -/
theorem roots_alone (r : Str × List RootItem) (rs : RootMap) :
    managerRoots none (some (r :: rs)) = .ok (r :: rs) := rfl

/-- C35: a manager made from the path of a directory, with no root map or an empty one, lists exactly the names that
the visible files of the directory provide.  Made from the path of anything else it lists nothing. -/
theorem path_alone (cfg : MgrCfg R) (fs : FNode) (rand : R) (p : Path) (rootMap : Option RootMap)
    (hm : rootMap = none ∨ rootMap = some []) (hc : managerRoots (some p) rootMap = .ok cfg.roots) :
    ∃ names, seen (Mgr.collectionNames cfg (newMgr fs rand)) = some (.ok names) ∧ names.Nodup ∧
      ∀ n, n ∈ names ↔ ∃ es rel contents k, fs.at p = some (.dir es) ∧ Visible (.dir es) rel contents ∧
        k ∈ (fileCollections cfg.lib p rel contents).map (·.1) ∧ n = combineNameParts [[], k] := by
  have hr : cfg.roots = [([], [.path p])] := by
    rcases hm with rfl | rfl <;> simpa [managerRoots] using hc.symm
  obtain ⟨names, h1, h2, h3⟩ := manager_names cfg fs rand
  refine ⟨names, h1, h2, fun n => ?_⟩
  rw [h3, hr]
  constructor
  · rintro ⟨q, items, item, k, hq, hi, hk, rfl⟩
    simp only [List.mem_singleton, Prod.mk.injEq] at hq
    obtain ⟨rfl, rfl⟩ := hq
    obtain rfl := List.mem_singleton.1 hi
    cases hk with | file h1 h2 h3 => exact ⟨_, _, _, k, h1, h2, h3, rfl⟩
  · rintro ⟨es, rel, c, k, h1, h2, h3, rfl⟩
    exact ⟨[], [.path p], .path p, k, by simp, by simp, .file h1 h2 h3, rfl⟩

/-- C35: a manager made from neither a path nor a root map lists no name and, however it has been used, has no value
for any wildcard. -/
theorem nothing_given (cfg : MgrCfg R) (fs : FNode) (rand : R) (rootMap : Option RootMap)
    (hm : rootMap = none ∨ rootMap = some []) (hc : managerRoots none rootMap = .ok cfg.roots)
    (ops : List MgrOp) (ho : ∀ op ∈ ops, ReadOnly op) (w : Str) :
    seen (Mgr.collectionNames cfg (runOps cfg ops (newMgr fs rand))) = some (.ok []) ∧
      seen (Mgr.getValues cfg w (runOps cfg ops (newMgr fs rand))) = some (.ok []) := by
  have hr : cfg.roots = [] := by
    rcases hm with rfl | rfl <;> simpa [managerRoots] using hc.symm
  have hi := manager_since_clear cfg (newMgr fs rand) ops ho
  have e0 : Mgr.clearCache (newMgr fs rand) = newMgr fs rand := rfl
  rw [e0] at hi
  constructor
  · obtain ⟨names, h1, -, h3⟩ := names_listed cfg (newMgr fs rand) ops ho
    rw [e0] at h1 h3
    have : names = [] := by
      refine List.eq_nil_iff_forall_not_mem.2 fun n hn => ?_
      obtain ⟨p, items, item, k, c, h, -⟩ := (h3 n).1 hn
      rw [hr] at h; cases h
    rw [h1, this]
  · have hp : ∀ v fs, valuesOf fs (pureMatch cfg fs v) = some [] := by
      intro v fs
      have : pureMatch cfg fs v = [] := by
        unfold pureMatch
        split
        · rfl
        · rw [hr]; simp [rootMapColls, rootMapPairs, Dict.update]
      rw [this]; rfl
    have hl : ∀ fs, pureLookup cfg fs w = some [] := by
      intro fs
      simp only [pureLookup, hp]
      split <;> rfl
    rcases mgr_get_seen_perm cfg _ w hi with ⟨h, -⟩ | ⟨u, v, hu, hv, hpm⟩
    · rw [hl] at h; cases h
    · rw [hl] at hu; cases hu
      rw [hv]
      have : ∀ so de, applyOptions so de false [] = [] := by decide +kernel
      rw [this] at hpm
      rw [hpm.eq_nil]

private def demoCfgD : MgrCfg Nat :=
  ⟨demoLib, c!"__", [([], [.path [c!"d"]])], ⟨.exact, fun _ w => (0, w), fun w => (⟨0, by decide⟩, w)⟩⟩

/-- A manager on a directory with a text file, a file of another kind, and a folder; and one on a path that turns
out to be that of a file. -/
example : managerRoots (some [c!"d"]) (some []) = .ok demoCfgD.roots ∧
    seen (Mgr.collectionNames demoCfgD (newMgr (.dir [(c!"d", .dir [(c!"a.txt", .file c!"x"), (c!"b.md", .file c!"y"),
      (c!"e", .dir [(c!"c.txt", .file c!"z")])])]) 0)) = some (.ok [c!"a", c!"e/c"]) ∧
    seen (Mgr.collectionNames demoCfgD (newMgr (.dir [(c!"d", .file c!"x")]) 0)) = some (.ok []) :=
  ⟨rfl, by decide +kernel, by decide +kernel⟩

/-- A manager made from nothing. -/
example : managerRoots none none = .ok { demoCfgD with roots := [] }.roots ∧
    seen (Mgr.getValues { demoCfgD with roots := [] } c!"a" (newMgr (.dir [(c!"a.txt", .file c!"x")]) 0)) =
      some (.ok []) :=
  ⟨rfl, by decide +kernel⟩

end Verif.Props
