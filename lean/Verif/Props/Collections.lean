import Verif.Model.Values
import Verif.Props.Manager
/-!
# Looking up collections by name (C81) and wildcard values as a collection (C82)
-/

namespace Verif.Props
open Verif Verif.Spec

variable {R : Type}

/-! ## C81 Names and files -/

theorem manager_since_clear (cfg : MgrCfg R) (past : Mgr R) (ops : List MgrOp)
    (hr : ∀ op ∈ ops, ReadOnly op) : MgrInv (fun _ => True) cfg (runOps cfg ops (Mgr.clearCache past)) :=
  mgr_ops_inv _ cfg ops _ (mgr_clear_inv _ cfg past trivial) hr (fun _ _ => trivial)

/-- The tree of a manager in use has the names of the files as they are. -/
theorem tree_in_use (cfg : MgrCfg R) (s : Mgr R) (h : TreeOk cfg s) :
    ∃ t s', Mgr.getTree cfg s = .ok t s' ∧ Ext cfg s s' ∧
      List.Forall₂ (fun p q => p.1 = q.1 ∧ CorrC s'.fs s'.heap p.2 q.2) t.map
        (rootMapColls cfg.lib s.fs cfg.roots) := by
  obtain ⟨t, s', e, x, ht⟩ := getTree_gives cfg s
  have := x.tree h t ht
  rw [x.fs] at this
  exact ⟨t, s', e, x, by rw [x.fs]; exact this⟩

theorem forall2_names {α β : Type} {P : α → β → Prop} {a : List (Str × α)} {b : List (Str × β)}
    (h : List.Forall₂ (fun p q => p.1 = q.1 ∧ P p.2 q.2) a b) : a.map (·.1) = b.map (·.1) := by
  induction h with
  | nil => rfl
  | cons h _ ih => simp [h.1, ih]

theorem forall2_get {α β : Type} {P : α → β → Prop} {a : Dict α} {b : Dict β}
    (h : List.Forall₂ (fun p q => p.1 = q.1 ∧ P p.2 q.2) a b) (n : Str) :
    (Dict.get a n = none ∧ Dict.get b n = none) ∨
      ∃ x y, Dict.get a n = some x ∧ Dict.get b n = some y ∧ P x y := by
  induction h with
  | nil => exact .inl ⟨rfl, rfl⟩
  | @cons p q a b h _ ih =>
    obtain ⟨n1, x⟩ := p
    obtain ⟨n2, y⟩ := q
    obtain ⟨rfl, hp⟩ := h
    simp only [Dict.get]
    by_cases hn : n1 = n
    · simp only [if_pos hn]
      exact .inr ⟨x, y, rfl, rfl, hp⟩
    · simpa only [if_neg hn] using ih

/-- **C81.**  After any past, a `clear_cache()` and any reading and setting of options, the names of
the collections are those of the files and lists of the roots, each once. -/
theorem names_listed (cfg : MgrCfg R) (past : Mgr R) (ops : List MgrOp) (hr : ∀ op ∈ ops, ReadOnly op) :
    let s := runOps cfg ops (Mgr.clearCache past)
    ∃ names, seen (Mgr.collectionNames cfg s) = some (.ok names) ∧ names.Nodup ∧
      ∀ n, n ∈ names ↔ ∃ p items item k c, (p, items) ∈ cfg.roots ∧ item ∈ items ∧
        (k, c) ∈ rootItemMap cfg.lib s.fs item ∧ n = combineNameParts [p, k] := by
  intro s
  obtain ⟨t, s', e, -, h2⟩ := tree_in_use cfg s (manager_since_clear cfg past ops hr).tree
  refine ⟨t.map.map (·.1), ?_, ?_, ?_⟩
  · have : Mgr.collectionNames cfg s = .ok (t.map.map (·.1)) s' := by
      show M.bind (Mgr.getTree cfg) _ s = _
      simp only [M.bind, e]; rfl
    rw [this]; rfl
  · rw [forall2_names h2]; exact root_map_nodup _ _ _
  · intro n
    rw [forall2_names h2]
    exact root_map_names cfg.lib s.fs cfg.roots n

/-- What `get_file` does and what its collection then gives. -/
theorem get_file_gives (cfg : MgrCfg R) (s : Mgr R) (w : Str) (h : TreeOk cfg s) :
    (cleanWildcard cfg.wrap w = none ∧ Mgr.getFile cfg w s = .err .value s) ∨
    ∃ n, cleanWildcard cfg.wrap w = some n ∧
      (((rootMapColls cfg.lib s.fs cfg.roots).get n = none ∧
          ∃ s', Mgr.getFile cfg w s = .err (.key n) s' ∧ Ext cfg s s') ∨
       ∃ raw c s', (rootMapColls cfg.lib s.fs cfg.roots).get n = some raw ∧ Mgr.getFile cfg w s = .ok c s' ∧
          Ext cfg s s' ∧ CorrC s'.fs s'.heap c raw) := by
  unfold Mgr.getFile
  cases cleanWildcard cfg.wrap w with
  | none => exact .inl ⟨rfl, rfl⟩
  | some n =>
    refine .inr ⟨n, rfl, ?_⟩
    obtain ⟨t, s', e, x, h2⟩ := tree_in_use cfg s h
    rcases forall2_get h2 n with ⟨h1, h3⟩ | ⟨c, raw, h1, h3, hc⟩
    · refine .inl ⟨h3, s', ?_, x⟩
      show M.bind (Mgr.getTree cfg) _ s = _
      simp only [M.bind, e, h1]; rfl
    · refine .inr ⟨raw, c, s', h3, ?_, x, hc⟩
      show M.bind (Mgr.getTree cfg) _ s = _
      simp only [M.bind, e, h1]; rfl

/-- **C81.**  `get_file(w)` raises ValueError for a name that is not valid, KeyError for a valid name that
`get_collection_names` does not list, and otherwise returns the collection listed under that name, whose
`get_values()` are the values of the file or list. -/
theorem get_file_by_name (cfg : MgrCfg R) (past : Mgr R) (ops : List MgrOp) (hr : ∀ op ∈ ops, ReadOnly op)
    (w : Str) (names : List Str)
    (hn : seen (Mgr.collectionNames cfg (runOps cfg ops (Mgr.clearCache past))) = some (.ok names)) :
    let s := runOps cfg ops (Mgr.clearCache past)
    (cleanWildcard cfg.wrap w = none → seen (Mgr.getFile cfg w s) = some (.error .value)) ∧
    ∀ n, cleanWildcard cfg.wrap w = some n →
      (n ∉ names → seen (Mgr.getFile cfg w s) = some (.error (.key n))) ∧
      (n ∈ names → ∃ c raw s', Mgr.getFile cfg w s = .ok c s' ∧
        (n, raw) ∈ rootMapColls cfg.lib s.fs cfg.roots ∧
        (∀ vs, Holds s.fs raw vs → seen (Mgr.collValues c s') = some (.ok vs)) ∧
        ((∀ vs, ¬ Holds s.fs raw vs) → seen (Mgr.collValues c s') = some (.error .os))) := by
  intro s
  have ht : TreeOk cfg s := (manager_since_clear cfg past ops hr).tree
  have hnames : names = (rootMapColls cfg.lib s.fs cfg.roots).map (·.1) := by
    obtain ⟨t, s', e, -, h2⟩ := tree_in_use cfg s ht
    have : Mgr.collectionNames cfg s = .ok (t.map.map (·.1)) s' := by
      show M.bind (Mgr.getTree cfg) _ s = _
      simp only [M.bind, e]; rfl
    rw [show runOps cfg ops (Mgr.clearCache past) = s from rfl, this] at hn
    simp only [seen, Option.some.injEq, Except.ok.injEq] at hn
    rw [← hn, forall2_names h2]
  have hmem : ∀ n, n ∈ names ↔ (rootMapColls cfg.lib s.fs cfg.roots).get n ≠ none := by
    intro n
    rw [hnames, ne_eq, Dict.get_none, not_not]; rfl
  rcases get_file_gives cfg s w ht with ⟨h1, h2⟩ | ⟨n, h1, h2⟩
  · exact ⟨fun _ => (by rw [h2]; rfl), fun n hn => (by rw [h1] at hn; cases hn)⟩
  · refine ⟨fun h => (by rw [h1] at h; cases h), ?_⟩
    intro n' hn'
    rw [h1] at hn'
    obtain rfl : n = n' := by simpa using hn'
    rcases h2 with ⟨h2, s', e, -⟩ | ⟨raw, c, s', h2, e, x, hc⟩
    · exact ⟨fun _ => (by rw [e]; rfl), fun h => absurd h2 ((hmem n).1 h)⟩
    · refine ⟨fun h => absurd ((hmem n).2 (by rw [h2]; simp)) h, fun _ => ⟨c, raw, s', e, ?_, ?_, ?_⟩⟩
      · exact Dict.get_mem _ _ _ h2
      · intro vs hv
        have g := collValues_gives cfg s' c raw hc
        rw [x.fs, (collVal_holds s.fs raw vs).2 hv] at g
        obtain ⟨s2, e2, -⟩ := g
        rw [e2]; rfl
      · intro hv
        have g := collValues_gives cfg s' c raw hc
        cases hcv : collVal s.fs raw with
        | some vs => exact absurd ((collVal_holds s.fs raw vs).1 hcv) (hv vs)
        | none =>
          rw [x.fs, hcv] at g
          obtain ⟨s2, e2, -⟩ := g
          rw [e2]; rfl

theorem gathers_one (fs : FNode) (n : Str) (hp : Plain n) (raw : RawColl) (vs : List Item) :
    ∀ (m : List (Str × RawColl)), (m.map (·.1)).Nodup → (n, raw) ∈ m → Holds fs raw vs →
      Gathers fs n m vs := by
  intro m
  have none_left : ∀ m : List (Str × RawColl), n ∉ m.map (·.1) → Gathers fs n m [] := by
    intro m
    induction m with
    | nil => intro _; exact .nil
    | cons q m ih =>
      intro h
      simp only [List.map_cons, List.mem_cons, not_or] at h
      refine .skip ?_ (ih h.2)
      rw [Bool.eq_false_iff]
      intro he
      exact h.1 ((plain_pattern n q.1 hp).1 he).symm
  induction m with
  | nil => intro _ h; simp at h
  | cons q m ih =>
    intro hd hm hv
    simp only [List.map_cons, List.nodup_cons] at hd
    rcases List.mem_cons.1 hm with rfl | hm
    · have := Gathers.take (m := m) ((plain_pattern n n hp).2 rfl) hv (none_left m hd.1)
      simpa using this
    · refine .skip ?_ (ih hd.2 hm hv)
      rw [Bool.eq_false_iff]
      intro he
      have := (plain_pattern n q.1 hp).1 he
      exact hd.1 (this ▸ List.mem_map.2 ⟨_, hm, rfl⟩)

/-- **C81.**  For a name without `*`, `?` and `[`, `get_values` returns the values of the collection that
`get_file` returns, if there are any: duplicates dropped and sorted as the options say. -/
theorem get_values_of_file (cfg : MgrCfg R) (past : Mgr R) (ops : List MgrOp) (hoff : past.shuffle = false)
    (hr : ∀ op ∈ ops, ReadOnly op ∧ NoShuffle op) (w n : Str) (hc : cleanWildcard cfg.wrap w = some n)
    (hp : Plain n) (c : WColl) (s' : Mgr R) (vs : List Item)
    (hf : Mgr.getFile cfg w (runOps cfg ops (Mgr.clearCache past)) = .ok c s')
    (hv : seen (Mgr.collValues c s') = some (.ok vs)) (hne : vs ≠ []) :
    let s := runOps cfg ops (Mgr.clearCache past)
    ∃ out, seen (Mgr.getValues cfg w s) = some (.ok out) ∧ Arranged s.sort s.dedup vs out := by
  intro s
  have ht : TreeOk cfg s := (manager_since_clear cfg past ops fun o ho => (hr o ho).1).tree
  have hfinds : Finds cfg s.fs w vs := by
    rcases get_file_gives cfg s w ht with ⟨h1, -⟩ | ⟨n', h1, h2⟩
    · rw [hc] at h1; cases h1
    · rw [hc] at h1
      obtain rfl : n = n' := by simpa using h1
      rcases h2 with ⟨-, s2, e, -⟩ | ⟨raw, c', s2, h2, e, x, hcc⟩
      · rw [show runOps cfg ops (Mgr.clearCache past) = s from rfl, e] at hf; cases hf
      · rw [show runOps cfg ops (Mgr.clearCache past) = s from rfl, e] at hf
        simp only [Res.ok.injEq] at hf
        obtain ⟨rfl, rfl⟩ := hf
        have g := collValues_gives cfg s2 c' raw hcc
        rw [x.fs] at g
        have hval : collVal s.fs raw = some vs := by
          cases hcv : collVal s.fs raw with
          | none =>
            rw [hcv] at g
            obtain ⟨s3, e3, -⟩ := g
            rw [e3] at hv; simp [seen] at hv
          | some us =>
            rw [hcv] at g
            obtain ⟨s3, e3, -⟩ := g
            rw [e3] at hv
            simp only [seen, Option.some.injEq, Except.ok.injEq] at hv
            rw [hv]
        have hm : (n, raw) ∈ rootMapColls cfg.lib s.fs cfg.roots := Dict.get_mem _ _ _ h2
        refine .inl ⟨.inr ⟨n, hc, ?_⟩, .inl hne⟩
        exact gathers_one s.fs n hp raw vs _ (root_map_nodup _ _ _) hm ((collVal_holds _ _ _).1 hval)
  obtain ⟨out, ho⟩ := get_values_succeeds cfg past ops w vs (fun o h => (hr o h).1) hfinds
  obtain ⟨found, hf2, ha⟩ := get_values_arranged cfg past ops w out hoff hr ho
  rw [finds_unique cfg _ w found vs hf2 hfinds] at ha
  exact ⟨out, ho, ha⟩

/-- **C81.**  The deprecated `get_all_values` gives the texts of `get_values`, without the weights, and
fails exactly when `get_values` fails. -/
theorem get_all_values_texts (cfg : MgrCfg R) (s : Mgr R) (w : Str) :
    (∀ vs, seen (Mgr.getValues cfg w s) = some (.ok vs) →
      seen (Mgr.getAllValues cfg w s) = some (.ok (vs.map Item.content))) ∧
    (∀ e, seen (Mgr.getValues cfg w s) = some (.error e) → seen (Mgr.getAllValues cfg w s) = some (.error e)) ∧
    after s (Mgr.getAllValues cfg w s) = after s (Mgr.getValues cfg w s) := by
  have : Mgr.getAllValues cfg w s = match Mgr.getValues cfg w s with
      | .ok vs s' => .ok (vs.map Item.content) s'
      | .err e s' => .err e s'
      | .fuel => .fuel := by
    show M.bind (Mgr.getValues cfg w) _ s = _
    simp only [M.bind]
    cases Mgr.getValues cfg w s <;> rfl
  rw [this]
  cases Mgr.getValues cfg w s <;> simp [seen, after]

/-- Two text files, one of them in a folder and empty, and a list given directly. -/
private def demoFs81 : FNode :=
  .dir [(c!"w", .dir [(c!"b.txt", .file c!"red\ngreen\nred"), (c!"d", .dir [(c!"a.txt", .file c!"# none")])])]

private def demoRng81 : Rng Nat := ⟨.exact, fun _ w => (0, w + 1), fun w => (⟨0, by decide⟩, w + 1)⟩

private def demoCfg81 : MgrCfg Nat :=
  ⟨demoLib, c!"__", [([], [.path [c!"w"], .dict [(c!"x", [⟨c!"u", some 2⟩])]])], demoRng81⟩

example : seen (Mgr.collectionNames demoCfg81 (newMgr demoFs81 0)) = some (.ok [c!"b", c!"d/a", c!"x"]) ∧
    seen (Mgr.getFile demoCfg81 c!"__x__" (newMgr demoFs81 0)) = some (.ok (.list [⟨c!"u", some 2⟩])) ∧
    seen (Mgr.getFile demoCfg81 c!"a" (newMgr demoFs81 0)) = some (.error (.key c!"a")) ∧
    seen (Mgr.getFile demoCfg81 c!"d/../b" (newMgr demoFs81 0)) = some (.error .value) ∧
    seen (Mgr.getAllValues demoCfg81 c!"b" (newMgr demoFs81 0)) = some (.ok [c!"green", c!"red"]) := by
  decide +kernel

/-- The hypotheses of `get_values_of_file` are met: the file `b`, read after another wildcard. -/
example : ∃ c s', Mgr.getFile demoCfg81 c!"/b" (runOps demoCfg81 [.get c!"*"] (Mgr.clearCache (newMgr demoFs81 0))) =
    .ok c s' ∧ seen (Mgr.collValues c s') = some (.ok [⟨c!"red", none⟩, ⟨c!"green", none⟩, ⟨c!"red", none⟩]) ∧
    cleanWildcard c!"__" c!"/b" = some c!"b" ∧ Plain c!"b" :=
  ⟨_, _, rfl, by decide +kernel, by decide +kernel, by simp [Plain]⟩

/-! ## C82 Wildcard values as a collection -/

/-- **C82.**  Indexing: for `0 ≤ i < len` the `i`-th item, for `-len ≤ i < 0` the item that many places from
the end, IndexError otherwise. -/
theorem index_items {α : Type} (l : List α) (i : Int) :
    (∀ h : 0 ≤ i ∧ i < l.length, pyIndex l i = .ok (l[i.toNat]'(by omega))) ∧
    (∀ h : -l.length ≤ i ∧ i < 0, pyIndex l i = .ok (l[(l.length + i).toNat]'(by omega))) ∧
    (i < -l.length ∨ l.length ≤ i → pyIndex l i = .error .index) := by
  refine ⟨?_, ?_, ?_⟩
  · intro h
    have h1 : ¬ i < 0 := by omega
    simp only [pyIndex, if_neg h1]
    rw [List.getElem?_eq_getElem (by omega)]
  · intro h
    have h1 : ¬ (i + (l.length : Int) < 0) := by omega
    simp only [pyIndex, if_pos h.2, if_neg h1]
    rw [List.getElem?_eq_getElem (by omega)]
    simp only [Int.add_comm]
  · intro h
    unfold pyIndex
    by_cases h1 : i < 0
    · have : i + (l.length : Int) < 0 := by omega
      simp [h1, this]
    · have : ¬ i.toNat < l.length := by omega
      simp [h1, this]

/-- **C82.**  Adding two collections: items, texts, repeated texts and (sums without rounding) cumulative weights follow each other;
the sum is empty only if both are; the weights of the sum vary exactly if there are two different ones. -/
theorem sum_of_values (a b : List Item) :
    stringValues (addValues a b) = stringValues a ++ stringValues b ∧
    iterateWeighted (addValues a b) = iterateWeighted a ++ iterateWeighted b ∧
    cumWeights .exact (addValues a b) =
      cumWeights .exact a ++ (cumWeights .exact b).map ((a.map fun i => i.weight.getD 1).sum + ·) ∧
    (addValues a b = [] ↔ a = [] ∧ b = []) ∧
    (hasVariedWeights (addValues a b) = true ↔
      ∃ i ∈ a ++ b, ∃ j ∈ a ++ b, i.weight.getD 1 ≠ j.weight.getD 1) := by
  have hacc : ∀ (ws : List Rat) (x y : Rat),
      accumulateFrom .exact (x + y) ws = (accumulateFrom .exact y ws).map (x + ·) := by
    intro ws
    induction ws with
    | nil => intro x y; rfl
    | cons z ws ih =>
      intro x y
      have e : Arith.exact.plus (x + y) z = x + Arith.exact.plus y z := Rat.add_assoc x y z
      simp only [accumulateFrom, List.map_cons, e, ih]
  have happ : ∀ (u v : List Rat) (x : Rat), accumulateFrom .exact x (u ++ v) =
      accumulateFrom .exact x u ++ accumulateFrom .exact (x + u.sum) v := by
    intro u
    induction u with
    | nil => intro v x; simp [accumulateFrom, Rat.add_zero]
    | cons z u ih =>
      intro v x
      have e : Arith.exact.plus x z = x + z := rfl
      simp [accumulateFrom, ih, e, Rat.add_assoc]
  have hz : ∀ ws, accumulate .exact ws = accumulateFrom .exact 0 ws := by
    intro ws
    cases ws with
    | nil => rfl
    | cons z ws =>
      have e : Arith.exact.plus 0 z = z := Rat.zero_add z
      simp only [accumulate, accumulateFrom, e]
  refine ⟨by simp [stringValues, addValues], by simp [iterateWeighted, addValues], ?_, by simp [addValues], ?_⟩
  · show accumulate .exact ((a ++ b).map Item.w) = accumulate .exact (a.map Item.w) ++
      (accumulate .exact (b.map Item.w)).map _
    rw [hz, hz, hz, List.map_append, happ, Rat.zero_add]
    congr 1
    have := hacc (b.map Item.w) (a.map Item.w).sum 0
    rw [Rat.add_zero] at this
    exact this
  · show hasVariedWeights (a ++ b) = true ↔ _
    generalize a ++ b = l
    cases l with
    | nil => simp [hasVariedWeights]
    | cons i l =>
      simp only [hasVariedWeights, List.any_eq_true, decide_eq_true_eq]
      constructor
      · rintro ⟨j, hj, hn⟩
        exact ⟨j, by simp [hj], i, by simp, hn⟩
      · rintro ⟨x, hx, y, hy, hn⟩
        by_cases hxi : x.w = i.w
        · have hyi : y.w ≠ i.w := fun e => hn (hxi.trans e.symm)
          rcases List.mem_cons.1 hy with rfl | hy
          · exact absurd rfl hyi
          · exact ⟨y, hy, hyi⟩
        · rcases List.mem_cons.1 hx with rfl | hx
          · exact absurd rfl hxi
          · exact ⟨x, hx, hxi⟩

/-- **C82.**  A shuffled copy has the items of the collection, each as often, so its texts repeated by
weight are the same up to order, and it has varied weights exactly if the collection has. -/
theorem shuffled_values {S : Type} (r : Rng S) (items : List Item) (w : S) :
    (shuffledValues r items w).1.Perm items ∧
    (iterateWeighted (shuffledValues r items w).1).Perm (iterateWeighted items) ∧
    hasVariedWeights (shuffledValues r items w).1 = hasVariedWeights items := by
  have hp : (shuffledValues r items w).1.Perm items := shuffle_perm r items w
  refine ⟨hp, hp.flatMap_right _, ?_⟩
  have h1 := (sum_of_values (shuffledValues r items w).1 []).2.2.2.2
  have h2 := (sum_of_values items []).2.2.2.2
  simp only [addValues, List.append_nil] at h1 h2
  rw [Bool.eq_iff_iff, h1, h2]
  simp only [hp.mem_iff]

example : pyIndex [c!"a", c!"b"] (-1) = .ok c!"b" ∧ pyIndex [c!"a", c!"b"] 2 = .error .index ∧
    cumWeights .exact (addValues [⟨c!"a", some 2⟩] [⟨c!"b", none⟩, ⟨c!"c", some (1 / 2)⟩]) = [2, 3, 7 / 2] := by
  decide +kernel

end Verif.Props
