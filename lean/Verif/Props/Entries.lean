import Verif.Proofs.Manager
import Verif.Model.Entries
import Mathlib.Data.List.Nodup
/-!
# C92 Entries whose text is not a string
-/

namespace Verif.Props
open Verif

/-! ## What the entries of a file are -/

/-- An entry as `Model/Files` has it: with its text turned into a string. -/
def simplified (lib : Lib) : Entry → Item
  | .text s => ⟨s, none⟩
  | .weighted s w => ⟨s, some w⟩
  | .raw v => ⟨lib.strOf v, none⟩
  | .odd v w => ⟨lib.strOf v, some w⟩

/-- **C92.**  The entries of a list in a structured file are those of the model of files, except that their texts are
kept as they are in the document. -/
theorem entries_simplified (lib : Lib) (l : List J) :
    parseList lib l = (listEntries lib l).map (·.map (simplified lib)) := by
  have hs : ∀ s, stringItem lib s = simplified lib (stringEntry lib s) := by
    intro s
    unfold stringItem stringEntry
    cases s with
    | nil => rfl
    | cons c cs =>
      dsimp only
      cases lib.isDigit c with
      | false => rfl
      | true =>
        rw [if_pos rfl, if_pos rfl]
        cases rpartition2 (c :: cs) with
        | none => rfl
        | some q =>
          dsimp only
          cases lib.float q.1 <;> rfl
  have hd : ∀ d, dictItem lib d = (dictEntry lib d).map (·.map (simplified lib)) := by
    intro d
    unfold dictItem dictEntry
    cases floatOf lib ((J.get d c!"weight").getD (.num 1)) with
    | none => rfl
    | some weight =>
      dsimp only
      cases jOr (J.get d c!"text") (J.get d c!"content") with
      | none => rfl
      | some v =>
        dsimp only
        cases v.truthy with
        | false => rfl
        | true =>
          rw [if_pos rfl, if_pos rfl]
          cases v <;> dsimp only <;> split <;> rfl
  induction l with
  | nil => rfl
  | cons j js ih =>
    cases j with
    | str t =>
      simp only [parseList, listEntries]
      split
      · exact ih
      · rw [ih, hs]
        cases listEntries lib js <;> rfl
    | dict d =>
      simp only [parseList, listEntries]
      split
      · exact ih
      · rw [hd]
        cases dictEntry lib d with
        | none => rfl
        | some es =>
          simp only [Option.map_some]
          rw [ih]
          cases listEntries lib js <;> simp
    | _ =>
      simp only [parseList, listEntries]
      split <;> exact ih

theorem listEntries_append (lib : Lib) (a b : List J) :
    listEntries lib (a ++ b) = (listEntries lib a).bind fun x => (listEntries lib b).map (x ++ ·) := by
  induction a with
  | nil =>
    rw [List.nil_append]
    cases h : listEntries lib b <;> simp [listEntries]
  | cons j a ih =>
    rw [List.cons_append]
    cases j with
    | str t =>
      simp only [listEntries]
      split
      · exact ih
      · rw [ih]
        cases listEntries lib a <;> cases listEntries lib b <;> simp
    | dict d =>
      simp only [listEntries]
      split
      · exact ih
      · cases dictEntry lib d with
        | none => rfl
        | some es =>
          simp only [ih]
          cases listEntries lib a <;> cases listEntries lib b <;> simp
    | _ =>
      simp only [listEntries]
      split <;> exact ih

/-- **C92.**  What is written `{text: v, weight: w}` with a `v` that is not a string and a weight that is not one is
kept as it is; with the weight one or without weight it is `v` itself. -/
theorem entry_of_value (lib : Lib) (v : J) (w : Rat) (before after : List J) (es es' : List Entry)
    (hv : v.truthy = true) (hs : ∀ s, v ≠ .str s) (h : listEntries lib before = some es)
    (h' : listEntries lib after = some es') :
    listEntries lib (before ++ .dict [(some c!"text", v), (some c!"weight", .num w)] :: after) =
      some (es ++ (if w = 1 then .raw v else .odd v w) :: es') ∧
    listEntries lib (before ++ .dict [(some c!"text", v)] :: after) = some (es ++ .raw v :: es') := by
  have happ : ∀ x : J, listEntries lib (before ++ x :: after) = (listEntries lib (x :: after)).map (es ++ ·) := by
    intro x
    rw [listEntries_append, h]
    rfl
  constructor
  · rw [happ]
    have : listEntries lib (.dict [(some c!"text", v), (some c!"weight", .num w)] :: after) =
        some ((if w = 1 then .raw v else .odd v w) :: es') := by
      rw [listEntries, if_neg (by simp [J.truthy])]
      have hd : dictEntry lib [(some c!"text", v), (some c!"weight", .num w)] =
          some [if w = 1 then .raw v else .odd v w] := by
        have h1 : J.get [(some c!"text", v), (some c!"weight", J.num w)] c!"weight" = some (.num w) := by
          simp [J.get]
        have h2 : J.get [(some c!"text", v), (some c!"weight", J.num w)] c!"text" = some v := by
          simp [J.get]
        unfold dictEntry
        rw [h1, h2]
        simp only [Option.getD_some, floatOf, jOr, hv, if_true]
        cases v with
        | str s => exact absurd rfl (hs s)
        | _ => split <;> simp_all
      rw [hd, h']
      rfl
    rw [this]
    rfl
  · rw [happ]
    have : listEntries lib (.dict [(some c!"text", v)] :: after) = some (.raw v :: es') := by
      rw [listEntries, if_neg (by simp [J.truthy])]
      have hd : dictEntry lib [(some c!"text", v)] = some [.raw v] := by
        have h1 : J.get [(some c!"text", v)] c!"weight" = none := by
          simp [J.get]
        have h2 : J.get [(some c!"text", v)] c!"text" = some v := by
          simp [J.get]
        unfold dictEntry
        rw [h1, h2]
        simp only [Option.getD_none, floatOf, jOr, hv, if_true]
      rw [hd, h']
      rfl
    rw [this]
    rfl

/-! ## Which lookups fail -/

/-- The entry contains a list or a dictionary. -/
def HoldsContainer (e : Entry) : Prop :=
  (∃ l, e = .raw (.list l)) ∨ (∃ d, e = .raw (.dict d)) ∨ (∃ l w, e = .odd (.list l) w) ∨ ∃ d w, e = .odd (.dict d) w

theorem hashable_iff (e : Entry) : e.hashable = false ↔ HoldsContainer e := by
  unfold HoldsContainer
  cases e with
  | text s => simp [Entry.hashable]
  | weighted s w => simp [Entry.hashable]
  | raw v => cases v <;> simp [Entry.hashable, J.hashable]
  | odd v w => cases v <;> simp [Entry.hashable, J.hashable]

theorem same_odd {e : Entry} {v : J} {w : Rat} (h : e.same (.odd v w) = true) : ∃ v' w', e = .odd v' w' := by
  cases e <;> simp [Entry.same] at h
  exact ⟨_, _, rfl⟩

theorem firstEntries_sub (es : List Entry) : ∀ seen, ∀ e ∈ firstEntries seen es, e ∈ es := by
  induction es with
  | nil => intro seen e h; cases h
  | cons x es ih =>
    intro seen e h
    rw [firstEntries] at h
    split at h
    · exact List.mem_cons_of_mem _ (ih _ e h)
    · rcases List.mem_cons.1 h with rfl | h
      · exact List.mem_cons_self
      · exact List.mem_cons_of_mem _ (ih _ e h)

theorem firstEntries_odd (es : List Entry) : ∀ seen, (∃ v w, Entry.odd v w ∈ es) →
    (∃ v w, Entry.odd v w ∈ firstEntries seen es) ∨ ∃ v w, Entry.odd v w ∈ seen := by
  induction es with
  | nil => rintro seen ⟨v, w, h⟩; cases h
  | cons x es ih =>
    rintro seen ⟨v, w, h⟩
    rw [firstEntries]
    rcases List.mem_cons.1 h with rfl | h
    · split
      · rename_i hs
        obtain ⟨y, hy, hs⟩ := List.any_eq_true.1 hs
        obtain ⟨v', w', rfl⟩ := same_odd hs
        exact .inr ⟨v', w', hy⟩
      · exact .inl ⟨v, w, List.mem_cons_self⟩
    · split
      · exact ih seen ⟨v, w, h⟩
      · rcases ih (x :: seen) ⟨v, w, h⟩ with ⟨v', w', h⟩ | ⟨v', w', h⟩
        · exact .inl ⟨v', w', List.mem_cons_of_mem _ h⟩
        · rcases List.mem_cons.1 h with h | h
          · exact .inl ⟨v', w', by rw [h]; exact List.mem_cons_self⟩
          · exact .inr ⟨v', w', h⟩

theorem keyed_none (lib : Lib) (es : List Entry) : keyed lib es = none ↔ ∃ v w, Entry.odd v w ∈ es := by
  induction es with
  | nil => simp [keyed]
  | cons e es ih =>
    rw [keyed]
    cases e with
    | odd v w => simp only [Entry.str]; exact ⟨fun _ => ⟨v, w, List.mem_cons_self⟩, fun _ => by trivial⟩
    | _ =>
      simp only [Entry.str]
      cases h : keyed lib es with
      | none => simpa using ih.1 h
      | some r =>
        have : ¬ ∃ v w, Entry.odd v w ∈ es := by rw [← ih, h]; simp
        simpa using this

theorem entryOptions_none (lib : Lib) (sort dedup shuffle : Bool) (es : List Entry) :
    entryOptions lib sort dedup shuffle es = none ↔
      (dedup = true ∧ ∃ e ∈ es, HoldsContainer e) ∨
      (sort = true ∧ shuffle = false ∧ ∃ v w, Entry.odd v w ∈ es) := by
  unfold entryOptions sortEntries dedupEntries
  have hh : es.all Entry.hashable = false ↔ ∃ e ∈ es, HoldsContainer e := by
    rw [List.all_eq_false]
    constructor
    · rintro ⟨e, he, h⟩
      exact ⟨e, he, (hashable_iff e).1 (by simpa using h)⟩
    · rintro ⟨e, he, h⟩
      exact ⟨e, he, by simp [(hashable_iff e).2 h]⟩
  cases dedup with
  | false =>
    cases sort <;> cases shuffle <;> simp [keyed_none]
  | true =>
    cases ha : es.all Entry.hashable with
    | false =>
      have := hh.1 ha
      simp [this]
    | true =>
      have hno : ¬ ∃ e ∈ es, HoldsContainer e := by rw [← hh, ha]; simp
      have hf : (∃ v w, Entry.odd v w ∈ firstEntries [] es) ↔ ∃ v w, Entry.odd v w ∈ es := by
        constructor
        · rintro ⟨v, w, h⟩
          exact ⟨v, w, firstEntries_sub es [] _ h⟩
        · intro h
          rcases firstEntries_odd es [] h with h | ⟨v, w, h⟩
          · exact h
          · cases h
      cases sort <;> cases shuffle <;> simp [keyed_none, hf, hno]

/-- **C92.**  Looking up a wildcard raises a TypeError exactly if, among the entries that match, there is a list or a
dictionary as a text (unless deduplication is off), or a text that is not a string has a weight (unless sorting is off or
shuffling is on). -/
theorem lookup_raises (lib : Lib) (wrap : Str) (m : Dict (List Entry)) (sort dedup shuffle : Bool) (w : Str) :
    let found := if (entryMatches wrap m w).isEmpty && !startsWith w c!"**" then entryMatches wrap m (c!"**/" ++ w)
      else entryMatches wrap m w
    entryValues lib wrap m sort dedup shuffle w = none ↔
      (dedup = true ∧ ∃ e ∈ found, HoldsContainer e) ∨
      (sort = true ∧ shuffle = false ∧ ∃ v q, Entry.odd v q ∈ found) :=
  entryOptions_none lib sort dedup shuffle _

/-- **C92.**  Sampling from values raises a TypeError exactly if one of them has a weight and a text that is no
string. -/
theorem sampling_raises (lib : Lib) (es : List Entry) :
    entryItems lib es = none ↔ ∃ v w, Entry.odd v w ∈ es := by
  induction es with
  | nil => simp [entryItems]
  | cons e es ih =>
    rw [entryItems]
    cases e with
    | odd v w => simp only [Entry.str]; exact ⟨fun _ => ⟨v, w, List.mem_cons_self⟩, fun _ => by trivial⟩
    | _ =>
      simp only [Entry.str]
      cases h : entryItems lib es with
      | none => simpa using ih.1 h
      | some r =>
        have : ¬ ∃ v w, Entry.odd v w ∈ es := by rw [← ih, h]; simp
        simpa using this

/-! ## All other lookups -/

theorem entryItems_map (lib : Lib) (es : List Entry) (h : ¬ ∃ v w, Entry.odd v w ∈ es) :
    entryItems lib es = some (es.map (simplified lib)) := by
  induction es with
  | nil => rfl
  | cons e es ih =>
    rw [entryItems, ih fun ⟨v, w, hm⟩ => h ⟨v, w, List.mem_cons_of_mem _ hm⟩]
    cases e with
    | odd v w => exact absurd ⟨v, w, List.mem_cons_self⟩ h
    | _ => rfl

theorem J.same_refl {v : J} (h : v.hashable = true) : v.same v = true := by
  cases v <;> simp_all [J.same, J.hashable]

theorem Entry.same_refl {e : Entry} (h : e.hashable = true) : e.same e = true := by
  cases e with
  | text s => simp [Entry.same]
  | weighted s w => simp [Entry.same]
  | raw v => exact J.same_refl h
  | odd v w =>
    simp only [Entry.same, decide_true, Bool.and_true]
    exact J.same_refl h

theorem firstEntries_map (lib : Lib) (es : List Entry) : ∀ seen : List Entry,
    (∀ e ∈ seen ++ es, ∀ e' ∈ seen ++ es, simplified lib e = simplified lib e' ↔ e.same e' = true) →
    (firstEntries seen es).map (simplified lib) = dedupeAux id (seen.map (simplified lib)) (es.map (simplified lib)) := by
  induction es with
  | nil => intro seen h; rfl
  | cons x es ih =>
    intro seen h
    rw [firstEntries, List.map_cons, dedupeAux]
    have hc : (seen.map (simplified lib)).contains (id (simplified lib x)) = seen.any (·.same x) := by
      rw [Bool.eq_iff_iff]
      simp only [id, List.contains_iff_mem, List.mem_map, List.any_eq_true]
      constructor
      · rintro ⟨y, hy, hs⟩
        exact ⟨y, hy, (h y (by simp [hy]) x (by simp)).1 hs⟩
      · rintro ⟨y, hy, hs⟩
        exact ⟨y, hy, (h y (by simp [hy]) x (by simp)).2 hs⟩
    rw [hc]
    split
    · exact ih seen fun e he e' he' => h e (by simp at he ⊢; tauto) e' (by simp at he' ⊢; tauto)
    · rw [List.map_cons]
      congr 1
      exact ih (x :: seen) fun e he e' he' => h e (by simp at he ⊢; tauto) e' (by simp at he' ⊢; tauto)

theorem keyed_map (lib : Lib) (es : List Entry) (h : ¬ ∃ v w, Entry.odd v w ∈ es) :
    ∃ l, keyed lib es = some l ∧ l.map (·.2) = es ∧ ∀ q ∈ l, q.1 = (simplified lib q.2).content := by
  induction es with
  | nil => exact ⟨[], rfl, rfl, by simp⟩
  | cons e es ih =>
    obtain ⟨l, h1, h2, h3⟩ := ih fun ⟨v, w, hm⟩ => h ⟨v, w, List.mem_cons_of_mem _ hm⟩
    rw [keyed, h1]
    cases e with
    | odd v w => exact absurd ⟨v, w, List.mem_cons_self⟩ h
    | _ =>
      refine ⟨_, rfl, by rw [List.map_cons, h2], ?_⟩
      intro q hq
      rcases List.mem_cons.1 hq with rfl | hq
      · rfl
      · exact h3 q hq

theorem sortKeyed_map (lib : Lib) (l : List (Str × Entry)) (h : ∀ q ∈ l, q.1 = (simplified lib q.2).content) :
    ((sortKeyed l).map (·.2)).map (simplified lib) = sortItems ((l.map (·.2)).map (simplified lib)) ∧
      ∀ q ∈ sortKeyed l, q ∈ l := by
  have hins : ∀ (k : Str) (e : Entry) (l : List (Str × Entry)), k = (simplified lib e).content →
      (∀ q ∈ l, q.1 = (simplified lib q.2).content) →
      ((insertEntry k e l).map (·.2)).map (simplified lib) =
        insertItem (simplified lib e) ((l.map (·.2)).map (simplified lib)) ∧
      ∀ q ∈ insertEntry k e l, q = (k, e) ∨ q ∈ l := by
    intro k e l hk hl
    induction l with
    | nil => simp [insertEntry, insertItem]
    | cons q qs ih =>
      obtain ⟨i1, i2⟩ := ih fun r hr => hl r (List.mem_cons_of_mem _ hr)
      rw [insertEntry, List.map_cons, List.map_cons, insertItem, hk, hl q List.mem_cons_self]
      split
      · simp
      · constructor
        · rw [List.map_cons, List.map_cons, ← hk, i1]
        · intro r hr
          rw [← hk] at hr
          rcases List.mem_cons.1 hr with rfl | hr
          · simp
          · rcases i2 r hr with rfl | hr
            · left; rw [← hk]
            · right; simp [hr]
  induction l with
  | nil => simp [sortKeyed, sortItems]
  | cons q qs ih =>
    obtain ⟨i1, i2⟩ := ih fun r hr => h r (List.mem_cons_of_mem _ hr)
    obtain ⟨j1, j2⟩ := hins q.1 q.2 (sortKeyed qs) (h q List.mem_cons_self)
      fun r hr => h r (List.mem_cons_of_mem _ (i2 r hr))
    rw [sortKeyed, List.map_cons, List.map_cons, sortItems, j1, i1]
    refine ⟨rfl, fun r hr => ?_⟩
    rcases j2 r hr with rfl | hr
    · exact List.mem_cons_self
    · exact List.mem_cons_of_mem _ (i2 r hr)

theorem entryOptions_some (lib : Lib) (sort dedup shuffle : Bool) (es : List Entry)
    (hodd : ¬ ∃ v w, Entry.odd v w ∈ es)
    (hd : dedup = true → ∀ e ∈ es, ¬ HoldsContainer e ∧
      ∀ e' ∈ es, simplified lib e = simplified lib e' ↔ e.same e' = true) :
    ∃ es', entryOptions lib sort dedup shuffle es = some es' ∧
      entryItems lib es' = some (applyOptions sort dedup shuffle (es.map (simplified lib))) := by
  have hsort : ∀ es : List Entry, (¬ ∃ v w, Entry.odd v w ∈ es) →
      ∃ es', (if sort && !shuffle then sortEntries lib es else some es) = some es' ∧
        entryItems lib es' = some (if sort && !shuffle then sortItems (es.map (simplified lib)) else
          es.map (simplified lib)) := by
    intro es hodd
    by_cases hs : (sort && !shuffle) = true
    · rw [if_pos hs, if_pos hs]
      obtain ⟨l, h1, h2, h3⟩ := keyed_map lib es hodd
      obtain ⟨g1, g2⟩ := sortKeyed_map lib l h3
      refine ⟨_, by rw [sortEntries, h1]; rfl, ?_⟩
      rw [entryItems_map, g1, h2]
      rintro ⟨v, w, hm⟩
      obtain ⟨q, hq, he⟩ := List.mem_map.1 hm
      refine hodd ⟨v, w, ?_⟩
      rw [← h2, ← he]
      exact List.mem_map_of_mem (g2 q hq)
    · rw [if_neg hs, if_neg hs]
      exact ⟨es, rfl, entryItems_map lib es hodd⟩
  unfold entryOptions applyOptions
  cases dedup with
  | false => exact hsort es hodd
  | true =>
    have ha : es.all Entry.hashable = true := by
      rw [List.all_eq_true]
      intro e he
      cases h : e.hashable with
      | true => rfl
      | false => exact absurd ((hashable_iff e).1 h) (hd rfl e he).1
    have hf := firstEntries_map lib es [] fun e he e' he' => (hd rfl e he).2 e' he'
    simp only [if_true, dedupEntries, ha]
    obtain ⟨es', h1, h2⟩ := hsort (firstEntries [] es) fun ⟨v, w, h⟩ => hodd ⟨v, w, firstEntries_sub es [] _ h⟩
    refine ⟨es', h1, ?_⟩
    rw [h2, hf]
    rfl

/-- **C92.**  In all other cases the lookup gives what the model of the manager gives for the texts turned into strings:
if no text that is not a string has a weight, and (with deduplication) no text is a list or a dictionary and two
entries are equal exactly if their strings are. -/
theorem lookup_as_strings {R : Type} (cfg : MgrCfg R) (m : Dict (List Entry)) (w : Str) (s : Mgr R) (t : Tree WColl)
    (ht : s.tree = some t) (hm : t.map = m.map fun q => (q.1, .list (q.2.map (simplified cfg.lib))))
    (hc : s.cache.get w = none) :
    let found := if (entryMatches cfg.wrap m w).isEmpty && !startsWith w c!"**" then
      entryMatches cfg.wrap m (c!"**/" ++ w) else entryMatches cfg.wrap m w
    (¬ ∃ v q, Entry.odd v q ∈ found) →
    (s.dedup = true → ∀ e ∈ found, ¬ HoldsContainer e ∧
      ∀ e' ∈ found, simplified cfg.lib e = simplified cfg.lib e' ↔ e.same e' = true) →
    ∃ es items s', entryValues cfg.lib cfg.wrap m s.sort s.dedup s.shuffle w = some es ∧
      entryItems cfg.lib es = some items ∧ Mgr.getValuesRaw cfg w s = .ok items s' := by
  intro found hodd hd
  obtain ⟨es, h1, h2⟩ := entryOptions_some cfg.lib s.sort s.dedup s.shuffle found hodd hd
  have hcolls : ∀ l : Dict (List Entry), ∀ s' : Mgr R,
      Mgr.collsValues (l.map fun q => WColl.list (q.2.map (simplified cfg.lib))) s' =
        .ok ((l.flatMap (·.2)).map (simplified cfg.lib)) s' := by
    intro l s'
    induction l with
    | nil => rfl
    | cons q l ih =>
      simp only [List.map_cons, Mgr.collsValues, Mgr.collValues, bind, M.bind, pure, M.pure, ih, List.flatMap_cons,
        List.map_append]
  have hmatch : ∀ w : Str, (Mgr.matchCollections cfg w >>= Mgr.collsValues : M (Mgr R) (List Item)) s =
      .ok ((entryMatches cfg.wrap m w).map (simplified cfg.lib)) s := by
    intro w
    unfold Mgr.matchCollections entryMatches
    cases cleanWildcard cfg.wrap w with
    | none => rfl
    | some pat =>
      simp only [bind, M.bind, Mgr.getTree, ht, pure, M.pure, Tree.matching, hm]
      rw [List.filter_map, List.map_map]
      exact hcolls _ s
  refine ⟨es, _, { s with cache := ((if s.cache.length > 100 then [] else s.cache) : Dict (List Item)).set w (applyOptions s.sort s.dedup s.shuffle (found.map (simplified cfg.lib))) }, h1, h2, ?_⟩
  have hlook : Mgr.lookup cfg w s = .ok (found.map (simplified cfg.lib)) s := by
    have h3 := hmatch w
    have h4 := hmatch (c!"**/" ++ w)
    simp only [bind, M.bind] at h3 h4
    unfold Mgr.lookup
    simp only [bind, M.bind]
    cases h5 : Mgr.matchCollections cfg w s with
    | fuel => rw [h5] at h3; cases h3
    | err e s' => rw [h5] at h3; cases h3
    | ok a s' =>
      rw [h5] at h3
      dsimp only at h3 ⊢
      rw [h3]
      dsimp only
      have h6 : ((entryMatches cfg.wrap m w).map (simplified cfg.lib)).isEmpty = (entryMatches cfg.wrap m w).isEmpty := by
        simp
      rw [h6]
      by_cases h7 : ((entryMatches cfg.wrap m w).isEmpty && !startsWith w c!"**") = true
      · have h8 : found = entryMatches cfg.wrap m (c!"**/" ++ w) := if_pos h7
        rw [if_pos h7, h8]
        exact h4
      · have h8 : found = entryMatches cfg.wrap m w := if_neg h7
        rw [if_neg h7, h8]
        rfl
  unfold Mgr.getValuesRaw
  rw [hc]
  simp only [bind, M.bind, hlook, Mgr.store, pure, M.pure]

/-! ## Equal entries -/

/-- The number a value stands for in comparisons; Python's `True` and `False` are one and zero. -/
def asNumber : J → Option Rat
  | .num q => some q
  | .bool true => some 1
  | .bool false => some 0
  | _ => none

/-- Values that are equal for Python. -/
def EqualValues (v v' : J) : Prop := v = v' ∨ ∃ q, asNumber v = some q ∧ asNumber v' = some q

/-- Entries that are equal: of the same kind, with equal texts and equal weights. -/
inductive EqualEntries : Entry → Entry → Prop
  | text (s : Str) : EqualEntries (.text s) (.text s)
  | weighted (s : Str) (w : Rat) : EqualEntries (.weighted s w) (.weighted s w)
  | value {v v' : J} : EqualValues v v' → EqualEntries (.raw v) (.raw v')
  | odd {v v' : J} (w : Rat) : EqualValues v v' → EqualEntries (.odd v w) (.odd v' w)

theorem EqualEntries.symm {e e' : Entry} (h : EqualEntries e e') : EqualEntries e' e := by
  have hv : ∀ {v v'}, EqualValues v v' → EqualValues v' v := by
    rintro v v' (rfl | ⟨q, h1, h2⟩)
    · exact .inl rfl
    · exact .inr ⟨q, h2, h1⟩
  cases h with
  | text s => exact .text s
  | weighted s w => exact .weighted s w
  | value h => exact .value (hv h)
  | odd w h => exact .odd w (hv h)

theorem same_values {v v' : J} (h : v.hashable = true) : v.same v' = true ↔ EqualValues v v' := by
  unfold EqualValues
  cases v <;> cases v' <;> simp_all [J.same, J.hashable, asNumber]
  · rename_i a b; cases a <;> cases b <;> simp
  · rename_i b q; cases b <;> simp [eq_comm]
  · rename_i q b; cases b <;> simp [eq_comm]

theorem same_entries {e e' : Entry} (h : e.hashable = true) : e.same e' = true ↔ EqualEntries e e' := by
  constructor
  · intro hs
    cases e <;> cases e' <;> simp [Entry.same] at hs
    · subst hs; exact .text _
    · obtain ⟨rfl, rfl⟩ := hs; exact .weighted _ _
    · exact .value ((same_values h).1 hs)
    · obtain ⟨hs, rfl⟩ := hs; exact .odd _ ((same_values h).1 hs)
  · intro hs
    cases hs with
    | text s => simp [Entry.same]
    | weighted s w => simp [Entry.same]
    | value hv => simpa [Entry.same] using (same_values h).2 hv
    | odd w hv => simpa [Entry.same] using (same_values h).2 hv

theorem firstEntries_first (es : List Entry) : ∀ seen, (∀ e ∈ seen ++ es, e.hashable = true) →
    (∀ e ∈ es, ∃ e' ∈ seen ++ firstEntries seen es, EqualEntries e' e) ∧
    (firstEntries seen es).Pairwise (fun a b => ¬ EqualEntries a b) ∧
    ∀ a ∈ seen, ∀ b ∈ firstEntries seen es, ¬ EqualEntries a b := by
  induction es with
  | nil => intro seen _; simp [firstEntries]
  | cons x es ih =>
    intro seen hh
    rw [firstEntries]
    split
    · rename_i hx
      obtain ⟨i1, i2, i3⟩ := ih seen fun e he => hh e (by
        rcases List.mem_append.1 he with he | he
        · exact List.mem_append.2 (.inl he)
        · exact List.mem_append.2 (.inr (List.mem_cons_of_mem _ he)))
      refine ⟨fun e he => ?_, i2, i3⟩
      rcases List.mem_cons.1 he with rfl | he
      · obtain ⟨e', he', hs⟩ := List.any_eq_true.1 hx
        exact ⟨e', List.mem_append.2 (.inl he'), (same_entries (hh e' (List.mem_append.2 (.inl he')))).1 hs⟩
      · exact i1 e he
    · rename_i hx
      obtain ⟨i1, i2, i3⟩ := ih (x :: seen) fun e he => hh e (by
        simp only [List.cons_append, List.mem_cons, List.mem_append] at he ⊢
        tauto)
      have hxs : ∀ a ∈ seen, ¬ EqualEntries a x := by
        intro a ha hs
        exact hx (List.any_eq_true.2 ⟨a, ha, (same_entries (hh a (List.mem_append.2 (.inl ha)))).2 hs⟩)
      refine ⟨fun e he => ?_, List.pairwise_cons.2 ⟨fun b hb => i3 x List.mem_cons_self b hb, i2⟩, fun a ha b hb => ?_⟩
      · rcases List.mem_cons.1 he with rfl | he
        · have hr : EqualEntries e e := (same_entries (hh e (by simp))).1 (Entry.same_refl (hh e (by simp)))
          exact ⟨e, by simp, hr⟩
        · obtain ⟨e', he', hs⟩ := i1 e he
          refine ⟨e', ?_, hs⟩
          simp only [List.cons_append, List.mem_cons, List.mem_append] at he' ⊢
          tauto
      · rcases List.mem_cons.1 hb with rfl | hb
        · exact hxs a ha
        · exact i3 a (List.mem_cons_of_mem _ ha) b hb

theorem insertEntry_perm (k : Str) (e : Entry) (l : List (Str × Entry)) : (insertEntry k e l).Perm ((k, e) :: l) := by
  induction l with
  | nil => exact .refl _
  | cons q qs ih =>
    rw [insertEntry]
    split
    · exact .refl _
    · exact (ih.cons q).trans (.swap _ _ _)

theorem sortKeyed_perm (l : List (Str × Entry)) : (sortKeyed l).Perm l := by
  induction l with
  | nil => exact .refl _
  | cons q qs ih => exact (insertEntry_perm _ _ _).trans (ih.cons q)

theorem keyed_entries (lib : Lib) (es : List Entry) (l : List (Str × Entry)) (h : keyed lib es = some l) : l.map (·.2) = es := by
  induction es generalizing l with
  | nil => simp [keyed] at h; subst h; rfl
  | cons e es ih =>
    rw [keyed] at h
    cases h1 : e.str lib with
    | none => simp [h1] at h
    | some k =>
      cases h2 : keyed lib es with
      | none => simp [h1, h2] at h
      | some r =>
        simp [h1, h2] at h
        subst h
        simp [ih r h2]

/-- **C92.**  With deduplication, a lookup that succeeds gives every entry found once: only entries found, no two of them equal, and
for each entry found an equal one. -/
theorem lookup_distinct (lib : Lib) (wrap : Str) (m : Dict (List Entry)) (sort shuffle : Bool) (w : Str) (r : List Entry)
    (h : entryValues lib wrap m sort true shuffle w = some r) :
    let found := if (entryMatches wrap m w).isEmpty && !startsWith w c!"**" then entryMatches wrap m (c!"**/" ++ w)
      else entryMatches wrap m w
    (∀ e ∈ r, e ∈ found) ∧ r.Pairwise (fun a b => ¬ EqualEntries a b) ∧ ∀ e ∈ found, ∃ e' ∈ r, EqualEntries e' e := by
  intro found
  replace h : entryOptions lib sort true shuffle found = some r := h
  unfold entryOptions dedupEntries at h
  simp only [if_true] at h
  by_cases hh : found.all Entry.hashable = true
  · rw [if_pos hh] at h
    obtain ⟨i1, i2, -⟩ := firstEntries_first found [] (fun e he => List.all_eq_true.1 hh e (by simpa using he))
    have hp : r.Perm (firstEntries [] found) := by
      dsimp only at h
      split at h
      · unfold sortEntries at h
        cases hk : keyed lib (firstEntries [] found) with
        | none => rw [hk] at h; cases h
        | some l =>
          rw [hk] at h
          cases h
          have := (sortKeyed_perm l).map (·.2)
          rwa [keyed_entries lib _ l hk] at this
      · cases h; exact .refl _
    refine ⟨fun e he => firstEntries_sub found [] e (hp.mem_iff.1 he), ?_, fun e he => ?_⟩
    · exact (hp.pairwise_iff (fun h hs => h hs.symm)).2 i2
    · obtain ⟨e', he', hs⟩ := i1 e he
      exact ⟨e', hp.mem_iff.2 (by simpa using he'), hs⟩
  · rw [if_neg hh] at h
    cases h

/-- What `str` gives for an entry. -/
inductive StringOf (lib : Lib) : Entry → Str → Prop
  | text (s : Str) : StringOf lib (.text s) s
  | weighted (s : Str) (w : Rat) : StringOf lib (.weighted s w) s
  | value (v : J) : StringOf lib (.raw v) (lib.strOf v)

theorem stringOf_iff (lib : Lib) (e : Entry) (k : Str) : e.str lib = some k ↔ StringOf lib e k := by
  constructor
  · intro h
    cases e <;> simp [Entry.str] at h
    · subst h; exact .text _
    · subst h; exact .weighted _ _
    · subst h; exact .value _
  · rintro (_ | _ | _) <;> rfl

theorem keyed_strings (lib : Lib) (es : List Entry) (l : List (Str × Entry)) (h : keyed lib es = some l) :
    ∀ q ∈ l, StringOf lib q.2 q.1 := by
  induction es generalizing l with
  | nil => simp [keyed] at h; subst h; simp
  | cons e es ih =>
    rw [keyed] at h
    cases h1 : e.str lib with
    | none => simp [h1] at h
    | some k =>
      cases h2 : keyed lib es with
      | none => simp [h1, h2] at h
      | some r =>
        simp [h1, h2] at h
        subst h
        intro q hq
        rcases List.mem_cons.1 hq with rfl | hq
        · exact (stringOf_iff lib _ _).1 h1
        · exact ih r h2 q hq

theorem insertEntry_sorted (k : Str) (e : Entry) (l : List (Str × Entry)) (h : l.Pairwise fun a b => Spec.TextLe a.1 b.1) :
    (insertEntry k e l).Pairwise fun a b => Spec.TextLe a.1 b.1 := by
  induction l with
  | nil => simp [insertEntry]
  | cons q qs ih =>
    obtain ⟨h1, h2⟩ := List.pairwise_cons.1 h
    rw [insertEntry]
    split
    · rename_i hk
      refine List.pairwise_cons.2 ⟨fun b hb => ?_, h⟩
      rcases List.mem_cons.1 hb with rfl | hb
      · exact (strLe_iff _ _).1 hk
      · exact (strLe_iff _ _).1 (strLe_trans _ _ _ hk ((strLe_iff _ _).2 (h1 b hb)))
    · rename_i hk
      refine List.pairwise_cons.2 ⟨fun b hb => ?_, ih h2⟩
      rcases List.mem_cons.1 ((insertEntry_perm k e qs).mem_iff.1 hb) with rfl | hb
      · exact (strLe_iff _ _).1 ((strLe_total _ _).resolve_left hk)
      · exact h1 b hb

theorem sortKeyed_sorted (l : List (Str × Entry)) : (sortKeyed l).Pairwise fun a b => Spec.TextLe a.1 b.1 := by
  induction l with
  | nil => simp [sortKeyed]
  | cons q qs ih => exact insertEntry_sorted _ _ _ ih

theorem firstEntries_sublist (es : List Entry) : ∀ seen, (firstEntries seen es).Sublist es := by
  induction es with
  | nil => intro seen; exact .slnil
  | cons e es ih =>
    intro seen
    rw [firstEntries]
    split
    · exact (ih _).cons e
    · exact (ih _).cons_cons e

/-- **C92.**  A lookup that succeeds gives its entries in the order of their strings if it sorts (and does not shuffle), otherwise in the
order found (`get_values` shuffles them afterwards if asked to); without deduplication these are all entries found. -/
theorem lookup_order (lib : Lib) (wrap : Str) (m : Dict (List Entry)) (sort dedup shuffle : Bool) (w : Str) (r : List Entry)
    (h : entryValues lib wrap m sort dedup shuffle w = some r) :
    let found := if (entryMatches wrap m w).isEmpty && !startsWith w c!"**" then entryMatches wrap m (c!"**/" ++ w)
      else entryMatches wrap m w
    (sort = true → shuffle = false → ∃ keys, List.Forall₂ (StringOf lib) r keys ∧ keys.Pairwise Spec.TextLe) ∧
    (sort = false ∨ shuffle = true → r.Sublist found) ∧ (dedup = false → r.Perm found) := by
  intro found
  replace h : entryOptions lib sort dedup shuffle found = some r := h
  unfold entryOptions at h
  obtain ⟨es, hes, hsub, hall⟩ : ∃ es, (if dedup then dedupEntries found else some found) = some es ∧ es.Sublist found ∧
      (dedup = false → es = found) := by
    cases dedup with
    | false => exact ⟨found, rfl, List.Sublist.refl _, fun _ => rfl⟩
    | true =>
      unfold dedupEntries at h ⊢
      by_cases hh : found.all Entry.hashable = true
      · exact ⟨firstEntries [] found, by simp [hh], firstEntries_sublist found [], by simp⟩
      · simp [hh] at h
  rw [hes] at h
  dsimp only at h
  by_cases hsort : sort = true ∧ shuffle = false
  · obtain ⟨rfl, rfl⟩ := hsort
    simp only [Bool.not_false, Bool.and_true, if_true] at h
    unfold sortEntries at h
    cases hk : keyed lib es with
    | none => rw [hk] at h; cases h
    | some l =>
      rw [hk] at h
      cases h
      refine ⟨fun _ _ => ⟨(sortKeyed l).map (·.1), ?_, ?_⟩, by simp, fun hd => ?_⟩
      · rw [List.forall₂_map_left_iff, List.forall₂_map_right_iff]
        exact List.forall₂_same.2 fun q hq => keyed_strings lib es l hk q ((sortKeyed_perm l).mem_iff.1 hq)
      · rw [List.pairwise_map]
        exact sortKeyed_sorted l
      · have := (sortKeyed_perm l).map (·.2)
        rwa [keyed_entries lib _ l hk, hall hd] at this
  · have hb : (sort && !shuffle) = false := by
      cases sort <;> cases shuffle <;> simp_all
    rw [hb] at h
    cases h
    refine ⟨fun h1 h2 => absurd ⟨h1, h2⟩ hsort, fun _ => hsub, fun hd => by rw [hall hd]⟩

/-! ## Examples -/

/-- One and true are the same value; a text with the weights two and three is not. -/
example : entryValues ⟨fun _ => false, fun _ => none, fun _ => c!"?", fun _ => none, fun _ => none⟩ c!"__"
    [(c!"n", [.raw (.num 1), .raw (.bool true), .weighted c!"a" 2, .weighted c!"a" 3])] false true false c!"n" =
    some [.raw (.num 1), .weighted c!"a" 2, .weighted c!"a" 3] := by rfl

private def L : Lib := ⟨fun c => decide ('0' ≤ c ∧ c ≤ '9'), fun s => if s = c!"2" then some 2 else none,
  fun | .num q => if q = 5 then c!"5" else c!"?" | _ => c!"?", fun _ => none, fun _ => none⟩

/-- In the order of the strings, equal entries once. -/
example : entryValues L c!"__" [(c!"n", [.text c!"b", .raw (.num 5), .weighted c!"a" 2, .text c!"b"])] true true false c!"n" =
    some [.raw (.num 5), .weighted c!"a" 2, .text c!"b"] := by rfl

private def five (w : List (Option Str × J)) : J := .dict ((some c!"text", .num 5) :: w)

/-- The text 5 with weight 2: any lookup that finds it fails with the default settings; without sorting it succeeds, but
nothing can be sampled. -/
example :
    ((listEntries L [.str c!"2::a", five [(some c!"weight", .num 2)]]).map fun es =>
      ((entryValues L c!"__" [(c!"n", es)] true true false c!"n").isNone,
       (entryValues L c!"__" [(c!"n", es)] true true false c!"m").isNone,
       ((entryValues L c!"__" [(c!"n", es)] false true false c!"n").bind (entryItems L)).isNone,
       (entryValues L c!"__" [(c!"n", es)] false true false c!"n").isNone)) =
    some (true, false, true, false) := by decide +kernel

/-- The text 5 with weight 1: a value like any other, but not equal to the string. -/
example :
    (((listEntries L [five [], .str c!"5", .str c!"2::a", five [], .str c!"5"]).bind
      fun es => entryValues L c!"__" [(c!"n", es)] true true false c!"n").bind (entryItems L)) =
    some [⟨c!"5", none⟩, ⟨c!"5", none⟩, ⟨c!"a", some 2⟩] := by decide +kernel

/-- The hypotheses of `lookup_as_strings` hold for a file with texts of both kinds. -/
example : let es := [Entry.raw (.num 5), .text c!"b", .weighted c!"a" 2]
    (¬ ∃ v q, Entry.odd v q ∈ es) ∧ (∀ e ∈ es, ¬ HoldsContainer e) ∧
      es.all (fun e => es.all fun e' => decide (simplified L e = simplified L e') == e.same e') = true := by
  refine ⟨by simp, ?_, by decide +kernel⟩
  intro e he
  rw [← hashable_iff]
  have : ∀ e ∈ [Entry.raw (.num 5), .text c!"b", .weighted c!"a" 2], e.hashable = true := by
    simp [Entry.hashable, J.hashable]
  simp [this e he]

end Verif.Props
