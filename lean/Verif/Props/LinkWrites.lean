import Verif.Spec.LinkWrites
import Verif.Props.Links
/-!
# C113 Writing through links
-/

namespace Verif.Props
open Verif Verif.Spec

variable {α : Type}

/-! ### Finding the place -/

theorem leads_of_advanceNew {fs : LNode α} {path cur : Path} :
    (∀ p, advanceNew fs cur path = .done p → Leads fs 0 cur path p ∨ LeadsNew fs 0 cur path p) ∧
    (∀ d ab t r, advanceNew fs cur path = .link d ab t r → ∀ used p,
      (Leads fs used (if ab then [] else d) (t ++ r) p → Leads fs (used + 1) cur path p) ∧
      (LeadsNew fs used (if ab then [] else d) (t ++ r) p → LeadsNew fs (used + 1) cur path p)) := by
  induction path generalizing cur with
  | nil => exact ⟨fun p e => by cases e; exact .inl (.here _), fun d ab t r e => by cases e⟩
  | cons n path ih =>
    cases hx : fs.at cur with
    | none => constructor <;> intros <;> simp_all [advanceNew]
    | some x =>
      cases x with
      | dir es =>
        by_cases hn : n = c!".."
        · subst hn
          obtain ⟨h1, h2⟩ := @ih cur.dropLast
          simp only [advanceNew, hx, if_true]
          exact ⟨fun p e => (h1 p e).imp (.up hx) (.up hx), fun d ab t r e used p =>
            ⟨fun hl => .up hx ((h2 d ab t r e used p).1 hl), fun hl => .up hx ((h2 d ab t r e used p).2 hl)⟩⟩
        · simp only [advanceNew, hx, if_neg hn]
          have hat := lat_entry (n := n) hx
          cases he : LNode.entry es n with
          | none =>
            rw [he] at hat
            simp only
            split
            · rename_i hr
              simp only [List.isEmpty_iff] at hr
              subst hr
              exact ⟨fun p e => by cases e; exact .inr (.name hn hx hat), fun d ab t r e => by cases e⟩
            · exact ⟨fun p e => (nomatch e), fun d ab t r e => (nomatch e)⟩
          | some y =>
            rw [he] at hat
            obtain ⟨h1, h2⟩ := @ih (cur ++ [n])
            cases y with
            | link ab t =>
              refine ⟨fun p e => by simp at e, fun d ab' t' r e used p => ?_⟩
              simp only [Advance.link.injEq] at e
              obtain ⟨rfl, rfl, rfl, rfl⟩ := e
              exact ⟨.over hn hat, .over hn hat⟩
            | _ =>
              exact ⟨fun p e => (h1 p e).imp (.into hn hat (by simp)) (.into hn hat (by simp)),
                fun d ab t r e used p => ⟨fun hl => .into hn hat (by simp) ((h2 d ab t r e used p).1 hl),
                  fun hl => .into hn hat (by simp) ((h2 d ab t r e used p).2 hl)⟩⟩
      | _ => constructor <;> intros <;> simp_all [advanceNew]

theorem resolveNew_same {fs : LNode α} {k : Nat} {cur path cur' path' : Path}
    (h : advanceNew fs cur path = advanceNew fs cur' path') : resolveNew fs k cur path = resolveNew fs k cur' path' := by
  rw [resolveNew.eq_def, h, resolveNew.eq_def fs k cur']

theorem resolveNew_link {fs : LNode α} {k : Nat} {cur path d t r : Path} {ab : Bool}
    (h : advanceNew fs cur path = .link d ab t r) :
    resolveNew fs (k + 1) cur path = resolveNew fs k (if ab then [] else d) (t ++ r) := by
  rw [resolveNew.eq_def, h]

/-- Opening for writing finds the place a path leads to, or where the file can be made. -/
theorem resolveNew_leads (fs : LNode α) (k : Nat) (cur path p : Path) :
    resolveNew fs k cur path = some p ↔ ∃ used, used ≤ k ∧ (Leads fs used cur path p ∨ LeadsNew fs used cur path p) := by
  constructor
  · induction k generalizing cur path with
    | zero =>
      intro e
      obtain ⟨h1, h2⟩ := @leads_of_advanceNew _ fs path cur
      unfold resolveNew at e
      cases hv : advanceNew fs cur path with
      | done q => rw [hv] at e; cases e; exact ⟨0, le_refl _, h1 _ hv⟩
      | fail => rw [hv] at e; cases e
      | link d ab t r => rw [hv] at e; cases e
    | succ k ih =>
      intro e
      obtain ⟨h1, h2⟩ := @leads_of_advanceNew _ fs path cur
      rw [resolveNew] at e
      cases hv : advanceNew fs cur path with
      | done q => rw [hv] at e; cases e; exact ⟨0, by omega, h1 _ hv⟩
      | fail => rw [hv] at e; cases e
      | link d ab t r =>
        rw [hv] at e
        obtain ⟨used, hu, hl⟩ := ih _ _ e
        exact ⟨used + 1, by omega, hl.imp (h2 _ _ _ _ hv _ _).1 (h2 _ _ _ _ hv _ _).2⟩
  · rintro ⟨used, hu, hl | hl⟩
    · induction hl generalizing k with
      | here cur => rw [resolveNew.eq_def]; simp only [advanceNew]
      | up hd h ih =>
        rw [← ih k hu]
        exact resolveNew_same (by simp [advanceNew, hd])
      | into hn hx hl h ih =>
        rw [← ih k hu]
        obtain ⟨es, hd, he⟩ := lat_snoc hx
        refine resolveNew_same ?_
        simp only [advanceNew, hd, if_neg hn, he]
      | over hn hx h ih =>
        obtain ⟨es, hd, he⟩ := lat_snoc hx
        obtain ⟨k, rfl⟩ : ∃ j, k = j + 1 := ⟨k - 1, by omega⟩
        rw [← ih k (by omega), resolveNew_link (by simp only [advanceNew, hd, if_neg hn, he]; rfl)]
    · induction hl generalizing k with
      | name hn hd hx =>
        rw [lat_entry hd] at hx
        rw [resolveNew.eq_def]
        simp only [advanceNew, hd, if_neg hn, hx, List.isEmpty_nil, if_true]
      | up hd h ih =>
        rw [← ih k hu]
        exact resolveNew_same (by simp [advanceNew, hd])
      | into hn hx hl h ih =>
        rw [← ih k hu]
        obtain ⟨es, hd, he⟩ := lat_snoc hx
        refine resolveNew_same ?_
        simp only [advanceNew, hd, if_neg hn, he]
      | over hn hx h ih =>
        obtain ⟨es, hd, he⟩ := lat_snoc hx
        obtain ⟨k, rfl⟩ : ∃ j, k = j + 1 := ⟨k - 1, by omega⟩
        rw [← ih k (by omega), resolveNew_link (by simp only [advanceNew, hd, if_neg hn, he]; rfl)]

/-! ### Writing at a place -/

theorem lentry_set (es : List (Str × LNode α)) (n : Str) (x : LNode α) : LNode.entry (LNode.setEntry es n x) n = some x := by
  induction es with
  | nil => simp [LNode.setEntry, LNode.entry]
  | cons q es ih =>
    obtain ⟨m, y⟩ := q
    simp only [LNode.setEntry]
    split
    · rename_i h; simp [LNode.entry, h]
    · rename_i h; simp only [LNode.entry, if_neg h]; exact ih

theorem lentry_set_ne (es : List (Str × LNode α)) (n n' : Str) (x : LNode α) (h : n ≠ n') :
    LNode.entry (LNode.setEntry es n x) n' = LNode.entry es n' := by
  induction es with
  | nil => simp [LNode.setEntry, LNode.entry, h]
  | cons q es ih =>
    obtain ⟨m, y⟩ := q
    simp only [LNode.setEntry]
    split
    · rename_i hm; subst hm; simp [LNode.entry, h]
    · simp only [LNode.entry, ih]

/-- The same node, up to what is in a directory. -/
def Alike1 : LNode α → LNode α → Prop
  | .dir _, .dir _ => True
  | x, y => x = y

theorem alike1_refl (x : LNode α) : Alike1 x x := by cases x <;> simp [Alike1]

/-- There is nothing, or the same up to what is in a directory. -/
def Alike? (o o' : Option (LNode α)) : Prop :=
  match o, o' with
  | none, none => True
  | some x, some y => Alike1 x y
  | _, _ => False

theorem alike?_refl (o : Option (LNode α)) : Alike? o o := by
  cases o with
  | none => trivial
  | some x => exact alike1_refl x

theorem put_at {fs fs' : LNode α} {c : α} {p : Path} (h : fs.put c p = some fs') :
    fs'.at p = some (.file c) ∧ ∀ r, r ≠ p → Alike? (fs.at r) (fs'.at r) := by
  induction p generalizing fs fs' with
  | nil =>
    cases fs with
    | file x =>
      cases h
      refine ⟨rfl, fun r hr => ?_⟩
      cases r with
      | nil => exact absurd rfl hr
      | cons _ _ => trivial
    | locked => cases h
    | dir _ => cases h
    | link _ _ => cases h
  | cons n ps ih =>
    cases fs with
    | file _ => cases h
    | locked => cases h
    | link _ _ => cases h
    | dir es =>
      simp only [LNode.put] at h
      cases he : LNode.entry es n with
      | none =>
        rw [he] at h
        simp only at h
        split at h
        · rename_i hp
          simp only [List.isEmpty_iff] at hp
          subst hp
          cases h
          refine ⟨by simp only [LNode.at, lentry_set], fun r hr => ?_⟩
          cases r with
          | nil => trivial
          | cons m rs =>
            by_cases hm : n = m
            · subst hm
              cases rs with
              | nil => exact absurd rfl hr
              | cons a rs => simp only [LNode.at, he, lentry_set]; trivial
            · simp only [LNode.at, lentry_set_ne _ _ _ _ hm]
              exact alike?_refl _
        · cases h
      | some x =>
        rw [he] at h
        simp only [Option.map_eq_some_iff] at h
        obtain ⟨x', hx, rfl⟩ := h
        obtain ⟨h1, h2⟩ := ih hx
        refine ⟨by simp only [LNode.at, lentry_set]; exact h1, fun r hr => ?_⟩
        cases r with
        | nil => trivial
        | cons m rs =>
          by_cases hm : n = m
          · subst hm
            simp only [LNode.at, he, lentry_set]
            exact h2 rs fun e => hr (by rw [e])
          · simp only [LNode.at, lentry_set_ne _ _ _ _ hm]
            exact alike?_refl _

/-- A file can be written, and made in a directory. -/
theorem put_can {fs : LNode α} {c : α} {p : Path} :
    (fs.put c p).isSome ↔ (∃ x, fs.at p = some (.file x)) ∨
      ∃ d n es, p = d ++ [n] ∧ fs.at d = some (.dir es) ∧ fs.at p = none := by
  induction p generalizing fs with
  | nil => cases fs <;> simp [LNode.put, LNode.at]
  | cons n ps ih =>
    have hno : (∀ es, fs ≠ .dir es) → ((fs.put c (n :: ps)).isSome ↔ (∃ x, fs.at (n :: ps) = some (.file x)) ∨
      ∃ d k es, n :: ps = d ++ [k] ∧ fs.at d = some (.dir es) ∧ fs.at (n :: ps) = none) := by
      intro hnd
      have e1 : fs.put c (n :: ps) = none := by cases fs <;> first | rfl | exact absurd rfl (hnd _)
      have e2 : fs.at (n :: ps) = none := by cases fs <;> first | rfl | exact absurd rfl (hnd _)
      rw [e1, e2]
      simp only [Option.isSome_none, Bool.false_eq_true, reduceCtorEq, exists_false, false_or, false_iff, not_exists, not_and]
      intro d k es e hd _
      cases d with
      | nil => exact hnd es (Option.some.inj hd)
      | cons a d => cases fs <;> first | cases hd | exact hnd _ rfl
    cases fs with
    | file _ => exact hno (by simp)
    | locked => exact hno (by simp)
    | link _ _ => exact hno (by simp)
    | dir es =>
      simp only [LNode.put, LNode.at]
      cases he : LNode.entry es n with
      | none =>
        simp only [reduceCtorEq, exists_false, false_or]
        constructor
        · intro h
          split at h
          · rename_i hp
            simp only [List.isEmpty_iff] at hp
            subst hp
            exact ⟨[], n, es, rfl, rfl, trivial⟩
          · cases h
        · rintro ⟨d, k, es', e, hd, -⟩
          cases d with
          | nil => cases e; rfl
          | cons a d =>
            cases e
            simp only [LNode.at, he] at hd
            cases hd
      | some x =>
        simp only [Option.isSome_map, ih (fs := x)]
        refine or_congr Iff.rfl ?_
        constructor
        · rintro ⟨d, k, es', rfl, hd, hn⟩
          exact ⟨n :: d, k, es', rfl, by simp only [LNode.at, he]; exact hd, hn⟩
        · rintro ⟨d, k, es', e, hd, hn⟩
          cases d with
          | nil => cases e; simp [LNode.at] at hn
          | cons a d =>
            cases e
            simp only [LNode.at, he] at hd
            exact ⟨d, k, es', rfl, hd, hn⟩

/-! ### What paths lead to -/

/-- Files may differ in their contents. -/
def Alike2 : LNode α → LNode α → Prop
  | .dir _, .dir _ => True
  | .file _, .file _ => True
  | x, y => x = y

theorem alike2_of_alike1 {x y : LNode α} (h : Alike1 x y) : Alike2 x y := by
  cases x <;> cases y <;> simp_all [Alike1, Alike2]

theorem alike2_symm {x y : LNode α} (h : Alike2 x y) : Alike2 y x := by
  cases x <;> cases y <;> simp_all [Alike2]

theorem leads_alike {fs fs' : LNode α} (h : ∀ r x, fs.at r = some x → ∃ y, fs'.at r = some y ∧ Alike2 x y) {used : Nat}
    {cur path p : Path} (hl : Leads fs used cur path p) : Leads fs' used cur path p := by
  induction hl with
  | here cur => exact .here cur
  | up hd _ ih =>
    obtain ⟨y, hy, ha⟩ := h _ _ hd
    cases y with
    | dir es' => exact .up hy ih
    | _ => cases ha
  | into hn hx hno _ ih =>
    obtain ⟨y, hy, ha⟩ := h _ _ hx
    refine .into hn hy ?_ ih
    rintro ab t rfl
    rename_i x _
    cases x with
    | link ab' t' => exact hno _ _ rfl
    | _ => cases ha
  | over hn hx _ ih =>
    obtain ⟨y, hy, ha⟩ := h _ _ hx
    cases y with
    | link ab t =>
      cases ha
      exact .over hn hy ih
    | _ => cases ha

theorem leads_unique {fs : LNode α} {u u' : Nat} {cur path p p' : Path} (h : Leads fs u cur path p) (h' : Leads fs u' cur path p') :
    p = p' := by
  have h1 := (resolve_leads fs (u + u') u' cur path p).2 ⟨u, rfl, h⟩
  have h2 := (resolve_leads fs (u + u') u cur path p').2 ⟨u', by omega, h'⟩
  rw [h1] at h2
  cases h2
  rfl

theorem write_eq {fs : LNode α} {used : Nat} {path p : Path} (hu : used ≤ 40) (h : Leads fs used [] path p ∨ LeadsNew fs used [] path p)
    (c : α) : fs.write c path = fs.put c p := by
  unfold LNode.write maxLinks
  rw [(resolveNew_leads fs 40 [] path p).2 ⟨used, hu, h⟩]

/-- **C113.**  Writing to a path that leads to a file, over whatever links, succeeds.  Afterwards every path that leads to the same place
reads the new contents, all other paths read what they read before, and all paths lead where they led: no link is replaced. -/
theorem write_through {fs : LNode α} {path : Path} {old : α} (h : LeadsTo fs path (.file old)) (c : α) :
    ∃ fs', fs.write c path = some fs' ∧
      (∀ q, SamePlace fs q path → fs'.read q = some c) ∧
      (∀ q, ¬ SamePlace fs q path → fs'.read q = fs.read q) ∧
      ∀ used cur q p, Leads fs' used cur q p ↔ Leads fs used cur q p := by
  obtain ⟨used, p, hu, hl, hp⟩ := h
  obtain ⟨fs', hw⟩ := Option.isSome_iff_exists.1 ((put_can (fs := fs) (c := c)).2 (.inl ⟨old, hp⟩))
  obtain ⟨h1, h2⟩ := put_at hw
  have hf : ∀ r x, fs.at r = some x → ∃ y, fs'.at r = some y ∧ Alike2 x y := by
    intro r x hr
    by_cases e : r = p
    · subst e
      rw [hp] at hr
      cases hr
      exact ⟨_, h1, trivial⟩
    · have := h2 r e
      rw [hr] at this
      cases hy : fs'.at r with
      | none => rw [hy] at this; exact this.elim
      | some y => rw [hy] at this; exact ⟨y, rfl, alike2_of_alike1 this⟩
  have hb : ∀ r x, fs'.at r = some x → ∃ y, fs.at r = some y ∧ Alike2 x y := by
    intro r x hr
    by_cases e : r = p
    · subst e
      rw [h1] at hr
      cases hr
      exact ⟨_, hp, trivial⟩
    · have := h2 r e
      rw [hr] at this
      cases hy : fs.at r with
      | none => rw [hy] at this; exact this.elim
      | some y => rw [hy] at this; exact ⟨y, rfl, alike2_symm (alike2_of_alike1 this)⟩
  have hiff : ∀ used cur q p, Leads fs' used cur q p ↔ Leads fs used cur q p := fun _ _ _ _ => ⟨leads_alike hb, leads_alike hf⟩
  refine ⟨fs', by rw [write_eq hu (.inl hl), hw], ?_, ?_, hiff⟩
  · rintro q ⟨p', ⟨u, hu', hq⟩, ⟨u', -, hp'⟩⟩
    cases leads_unique hp' hl
    exact (links_opened fs' q c).2 ⟨u, _, hu', (hiff _ _ _ _).2 hq, h1⟩
  · intro q hq
    apply Option.ext
    intro x
    rw [links_opened, links_opened]
    constructor
    · rintro ⟨u, r, hu', hr, hx⟩
      have hr' := (hiff _ _ _ _).1 hr
      have hne : r ≠ p := by rintro rfl; exact hq ⟨r, ⟨u, hu', hr'⟩, ⟨used, hu, hl⟩⟩
      have := h2 r hne
      rw [hx] at this
      refine ⟨u, r, hu', hr', ?_⟩
      cases hy : fs.at r with
      | none => rw [hy] at this; exact this.elim
      | some y =>
        rw [hy] at this
        cases y <;> simp_all [Alike?, Alike1]
    · rintro ⟨u, r, hu', hr, hx⟩
      have hne : r ≠ p := by rintro rfl; exact hq ⟨r, ⟨u, hu', hr⟩, ⟨used, hu, hl⟩⟩
      have := h2 r hne
      rw [hx] at this
      refine ⟨u, r, hu', (hiff _ _ _ _).2 hr, ?_⟩
      cases hy : fs'.at r with
      | none => rw [hy] at this; exact this.elim
      | some y =>
        rw [hy] at this
        cases y <;> simp_all [Alike?, Alike1]

theorem leadsNew_place {fs : LNode α} {used : Nat} {cur path p : Path} (h : LeadsNew fs used cur path p) :
    ∃ d n es, n ≠ c!".." ∧ p = d ++ [n] ∧ fs.at d = some (.dir es) ∧ fs.at p = none := by
  induction h with
  | name hn hd hx => exact ⟨_, _, _, hn, rfl, hd, hx⟩
  | up _ _ ih => exact ih
  | into _ _ _ _ ih => exact ih
  | over _ _ _ ih => exact ih

/-- A path that does not end at a file does not go through it. -/
theorem leads_beside {fs fs' : LNode α} {c : α} {p : Path} (hp : fs'.at p = some (.file c)) (hp0 : [] ≠ p)
    (h : ∀ r x, fs'.at r = some x → r ≠ p → ∃ y, fs.at r = some y ∧ Alike2 x y) {used : Nat} {cur path r : Path}
    (hl : Leads fs' used cur path r) (hr : r ≠ p) (hc : cur ≠ p) : Leads fs used cur path r := by
  induction hl with
  | here cur => exact .here cur
  | up hd _ ih =>
    rename_i u cur rest r es _
    obtain ⟨y, hy, ha⟩ := h _ _ hd hc
    cases y with
    | dir es' =>
      refine .up hy (ih hr ?_)
      rcases List.eq_nil_or_concat cur with rfl | ⟨d, n, rfl⟩
      · exact hp0
      · rw [List.concat_eq_append] at hd ⊢
        obtain ⟨es, hd', -⟩ := lat_snoc hd
        rw [List.dropLast_concat]
        rintro rfl
        rw [hp] at hd'
        cases hd'
    | _ => cases ha
  | into hn hx hno hrest ih =>
    rename_i u cur rest r n x
    by_cases e : cur ++ [n] = p
    · subst e
      exfalso
      cases hrest with
      | here => exact hr rfl
      | up hd _ => rw [hp] at hd; cases hd
      | into _ hx' _ _ =>
        obtain ⟨es, hd, -⟩ := lat_snoc hx'
        rw [hp] at hd; cases hd
      | over _ hx' _ =>
        obtain ⟨es, hd, -⟩ := lat_snoc hx'
        rw [hp] at hd; cases hd
    · obtain ⟨y, hy, ha⟩ := h _ _ hx e
      refine .into hn hy ?_ (ih hr e)
      rintro ab t rfl
      cases x with
      | link ab' t' => exact hno _ _ rfl
      | _ => cases ha
  | over hn hx _ ih =>
    rename_i u cur rest r t n ab _
    have e : cur ++ [n] ≠ p := by rintro rfl; rw [hp] at hx; cases hx
    obtain ⟨y, hy, ha⟩ := h _ _ hx e
    cases y with
    | link ab' t' =>
      cases ha
      refine .over hn hy (ih hr ?_)
      split
      · exact hp0
      · exact hc
    | _ => cases ha

/-- **C113.**  Writing to a path that leads to the name of a file that is not there makes the file: a link that leads nowhere is followed,
not replaced.  The path then reads what was written, as do all other paths that now lead there; all others read what they read before. -/
theorem write_new {fs : LNode α} {used : Nat} {path p : Path} (hu : used ≤ 40) (h : LeadsNew fs used [] path p) (c : α) :
    ∃ fs', fs.write c path = some fs' ∧ fs'.read path = some c ∧ fs'.at p = some (.file c) ∧
      (∀ q x, fs.read q = some x → fs'.read q = some x) ∧
      ∀ q, (∃ used, used ≤ 40 ∧ Leads fs' used [] q p) ∨ fs'.read q = fs.read q := by
  obtain ⟨d, n, es, hn, hd1, hd2, hp⟩ := leadsNew_place h
  obtain ⟨fs', hw⟩ := Option.isSome_iff_exists.1 ((put_can (fs := fs) (c := c)).2 (.inr ⟨d, n, es, hd1, hd2, hp⟩))
  obtain ⟨h1, h2⟩ := put_at hw
  have hf : ∀ r x, fs.at r = some x → ∃ y, fs'.at r = some y ∧ Alike1 x y := by
    intro r x hr
    have e : r ≠ p := by rintro rfl; rw [hp] at hr; cases hr
    have := h2 r e
    rw [hr] at this
    cases hy : fs'.at r with
    | none => rw [hy] at this; exact this.elim
    | some y => rw [hy] at this; exact ⟨y, rfl, this⟩
  have hf2 : ∀ r x, fs.at r = some x → ∃ y, fs'.at r = some y ∧ Alike2 x y := fun r x hr =>
    have ⟨y, hy, ha⟩ := hf r x hr
    ⟨y, hy, alike2_of_alike1 ha⟩
  have hpath : ∀ {u : Nat} {cur path r : Path}, LeadsNew fs u cur path r → fs'.at r = some (.file c) → Leads fs' u cur path r := by
    intro u cur path r h h1
    induction h with
    | name hn hd hx => exact .into hn h1 (by simp) (.here _)
    | up hd _ ih =>
      obtain ⟨y, hy, ha⟩ := hf2 _ _ hd
      cases y with
      | dir es' => exact .up hy (ih h1)
      | _ => cases ha
    | into hn hx hno _ ih =>
      obtain ⟨y, hy, ha⟩ := hf2 _ _ hx
      refine .into hn hy ?_ (ih h1)
      rintro ab t rfl
      rename_i x _
      cases x with
      | link ab' t' => exact hno _ _ rfl
      | _ => cases ha
    | over hn hx _ ih =>
      obtain ⟨y, hy, ha⟩ := hf2 _ _ hx
      cases y with
      | link ab t =>
        cases ha
        exact .over hn hy (ih h1)
      | _ => cases ha
  have hold : ∀ q x, fs.read q = some x → fs'.read q = some x := by
    intro q x hq
    obtain ⟨u, r, hu', hr, hx⟩ := (links_opened fs q x).1 hq
    refine (links_opened fs' q x).2 ⟨u, r, hu', leads_alike hf2 hr, ?_⟩
    obtain ⟨y, hy, ha⟩ := hf _ _ hx
    rw [hy]
    cases y <;> simp_all [Alike1]
  refine ⟨fs', by rw [write_eq hu (.inr h), hw], (links_opened fs' path c).2 ⟨used, p, hu, hpath h h1, h1⟩, h1, hold, fun q => ?_⟩
  by_cases hq : ∃ used, used ≤ 40 ∧ Leads fs' used [] q p
  · exact .inl hq
  · refine .inr (Option.ext fun x => ⟨fun hx => ?_, hold q x⟩)
    obtain ⟨u, r, hu', hr, hx⟩ := (links_opened fs' q x).1 hx
    have hne : r ≠ p := by rintro rfl; exact hq ⟨u, hu', hr⟩
    refine (links_opened fs q x).2 ⟨u, r, hu', leads_beside h1 (by simp [hd1]) ?_ hr hne (by simp [hd1]), ?_⟩
    · intro r x hr hrp
      have := h2 r hrp
      rw [hr] at this
      cases hy : fs.at r with
      | none => rw [hy] at this; exact this.elim
      | some y => rw [hy] at this; exact ⟨y, rfl, alike2_symm (alike2_of_alike1 this)⟩
    · have := h2 r hne
      rw [hx] at this
      cases hy : fs.at r with
      | none => rw [hy] at this; exact this.elim
      | some y =>
        rw [hy] at this
        cases y <;> simp_all [Alike?, Alike1]

theorem at_dropLast {fs : LNode α} {cur : Path} (h : (fs.at cur).isSome) : (fs.at cur.dropLast).isSome := by
  rcases List.eq_nil_or_concat cur with rfl | ⟨d, n, rfl⟩
  · simpa using h
  · obtain ⟨x, hx⟩ := Option.isSome_iff_exists.1 h
    rw [List.concat_eq_append] at hx
    obtain ⟨es, hd, -⟩ := lat_snoc hx
    simp [hd]

theorem leads_there {fs : LNode α} {used : Nat} {cur path p : Path} (h : Leads fs used cur path p) (hc : (fs.at cur).isSome) :
    (fs.at p).isSome := by
  induction h with
  | here cur => exact hc
  | up hd _ ih => exact ih (at_dropLast hc)
  | into hn hx hl _ ih => exact ih (by rw [hx]; rfl)
  | over hn hx _ ih =>
    refine ih ?_
    split
    · simp [LNode.at]
    · exact hc

/-- **C113.**  In all other cases, writing is an OSError. -/
theorem write_fails (fs : LNode α) (path : Path) (c : α) :
    fs.write c path = none ↔ (¬ ∃ old, LeadsTo fs path (.file old)) ∧ ¬ ∃ used p, used ≤ 40 ∧ LeadsNew fs used [] path p := by
  constructor
  · intro h
    refine ⟨?_, ?_⟩
    · rintro ⟨old, ho⟩
      obtain ⟨fs', hw, -⟩ := write_through ho c
      rw [h] at hw
      cases hw
    · rintro ⟨used, p, hu, hl⟩
      obtain ⟨fs', hw, -⟩ := write_new hu hl c
      rw [h] at hw
      cases hw
  · rintro ⟨h1, h2⟩
    unfold LNode.write maxLinks
    cases hr : resolveNew fs 40 [] path with
    | none => rfl
    | some p =>
      obtain ⟨used, hu, hl | hl⟩ := (resolveNew_leads fs 40 [] path p).1 hr
      · simp only
        rw [Option.eq_none_iff_forall_not_mem]
        intro fs' hm
        have hs : (fs.put c p).isSome := by rw [Option.mem_def.1 hm]; rfl
        rcases put_can.1 hs with ⟨x, hx⟩ | ⟨d, n, es, -, -, hx⟩
        · exact h1 ⟨x, used, p, hu, hl, hx⟩
        · have := leads_there hl (by simp [LNode.at])
          rw [hx] at this
          cases this
      · exact absurd ⟨used, p, hu, hl⟩ h2

/-! ### Without links -/

theorem asLinks_entry (es : List (Str × FTree α)) (n : Str) :
    LNode.entry (asLinks.entries es) n = (FTree.entry es n).map asLinks := by
  induction es with
  | nil => rfl
  | cons q es ih =>
    obtain ⟨m, y⟩ := q
    simp only [asLinks.entries, LNode.entry, FTree.entry]
    split
    · rfl
    · exact ih

theorem asLinks_setEntry (es : List (Str × FTree α)) (n : Str) (x : FTree α) :
    LNode.setEntry (asLinks.entries es) n (asLinks x) = asLinks.entries (FTree.setEntry es n x) := by
  induction es with
  | nil => rfl
  | cons q es ih =>
    obtain ⟨m, y⟩ := q
    simp only [asLinks.entries, LNode.setEntry, FTree.setEntry]
    split
    · rfl
    · rw [ih]; rfl

theorem asLinks_at (t : FTree α) (p : Path) : (asLinks t).at p = (t.at p).map asLinks := by
  induction p generalizing t with
  | nil => rfl
  | cons n p ih =>
    cases t with
    | file _ => rfl
    | broken => rfl
    | dir es =>
      simp only [asLinks, LNode.at, FTree.at, asLinks_entry]
      cases FTree.entry es n with
      | none => rfl
      | some x => exact ih x

theorem asLinks_put (t : FTree α) (c : α) (p : Path) : (asLinks t).put c p = (t.write c p).map asLinks := by
  induction p generalizing t with
  | nil => cases t <;> rfl
  | cons n p ih =>
    cases t with
    | file _ => rfl
    | broken => rfl
    | dir es =>
      simp only [asLinks, LNode.put, FTree.write, asLinks_entry]
      cases FTree.entry es n with
      | none =>
        simp only [Option.map_none]
        split
        · rw [show LNode.file c = asLinks (.file c) from rfl, asLinks_setEntry]; rfl
        · rfl
      | some x =>
        simp only [Option.map_some, ih x, Option.map_map]
        congr 1
        funext y
        simp only [Function.comp, asLinks_setEntry, asLinks]

theorem plain_leads {fs : LNode α} (hf : ∀ p ab t, fs.at p ≠ some (.link ab t)) {used : Nat} {cur path p : Path} (hp : c!".." ∉ path) :
    (Leads fs used cur path p → p = cur ++ path) ∧ (LeadsNew fs used cur path p → p = cur ++ path) := by
  constructor
  · intro h
    induction h with
    | here => simp
    | up _ _ _ => simp at hp
    | into _ _ _ _ ih => rw [ih (by simp only [List.mem_cons, not_or] at hp; exact hp.2)]; simp
    | over _ hx _ _ => exact absurd hx (hf _ _ _)
  · intro h
    induction h with
    | name => rfl
    | up _ _ _ => simp at hp
    | into _ _ _ _ ih => rw [ih (by simp only [List.mem_cons, not_or] at hp; exact hp.2)]; simp
    | over _ hx _ _ => exact absurd hx (hf _ _ _)

theorem plain_there {fs : LNode α} (hf : ∀ p ab t, fs.at p ≠ some (.link ab t)) {path : Path} (hp : c!".." ∉ path) (cur : Path) {x : LNode α}
    (h : fs.at (cur ++ path) = some x) : Leads fs 0 cur path (cur ++ path) := by
  induction path generalizing cur with
  | nil => simpa using Leads.here cur
  | cons n path ih =>
    simp only [List.mem_cons, not_or] at hp
    rw [List.append_cons] at h ⊢
    have h' := h
    rw [lat_append] at h'
    obtain ⟨y, hy, -⟩ := Option.bind_eq_some_iff.1 h'
    exact .into (Ne.symm hp.1) hy (fun ab t e => hf _ ab t (e ▸ hy)) (ih hp.2 _ h)

theorem plain_missing {fs : LNode α} (hf : ∀ p ab t, fs.at p ≠ some (.link ab t)) {path : Path} {n : Str} (hp : c!".." ∉ path ++ [n])
    (cur : Path) {es : List (Str × LNode α)} (h : fs.at (cur ++ path) = some (.dir es)) (hn : fs.at (cur ++ path ++ [n]) = none) :
    LeadsNew fs 0 cur (path ++ [n]) (cur ++ path ++ [n]) := by
  induction path generalizing cur with
  | nil =>
    simp only [List.nil_append, List.mem_singleton, List.append_nil] at hp h hn ⊢
    exact .name (Ne.symm hp) h hn
  | cons m path ih =>
    simp only [List.cons_append, List.mem_cons, not_or] at hp
    rw [List.append_cons cur m path] at h hn ⊢
    have h' := h
    rw [lat_append] at h'
    obtain ⟨y, hy, -⟩ := Option.bind_eq_some_iff.1 h'
    exact .into (Ne.symm hp.1) hy (fun ab t e => hf _ ab t (e ▸ hy)) (ih hp.2 _ h hn)

/-- **C113.**  On a file system without links, writing is what the model of the wildcard manager's files says. -/
theorem plain_write (t : FTree α) (c : α) (path : Path) (hp : c!".." ∉ path) :
    (asLinks t).write c path = (t.write c path).map asLinks := by
  have hf : ∀ p ab u, (asLinks t).at p ≠ some (.link ab u) := by
    intro p ab u h
    rw [asLinks_at] at h
    obtain ⟨x, -, hx⟩ := Option.map_eq_some_iff.1 h
    cases x <;> simp [asLinks] at hx
  rw [← asLinks_put]
  cases hw : (asLinks t).put c path with
  | some fs' =>
    have hs : ((asLinks t).put c path).isSome := by rw [hw]; rfl
    rw [← hw]
    rcases put_can.1 hs with ⟨x, hx⟩ | ⟨d, n, es, rfl, hd, hn⟩
    · exact write_eq (Nat.zero_le 40) (.inl (plain_there hf hp [] hx)) c
    · exact write_eq (Nat.zero_le 40) (.inr (plain_missing hf hp [] hd hn)) c
  | none =>
    have hs : ¬ ((asLinks t).put c path).isSome := by rw [hw]; simp
    rw [write_fails]
    refine ⟨?_, ?_⟩
    · rintro ⟨old, used, p, -, hl, hx⟩
      cases (plain_leads hf hp).1 hl
      exact hs (put_can.2 (.inl ⟨old, hx⟩))
    · rintro ⟨used, p, -, hl⟩
      obtain ⟨d, n, es, -, h1, h2, h3⟩ := leadsNew_place hl
      cases (plain_leads hf hp).2 hl
      exact hs (put_can.2 (.inr ⟨d, n, es, h1, h2, h3⟩))

/-! ### An example -/

/-- Links to a file, to a directory, to nothing that is there, and to themselves. -/
def writeFs : LNode Str :=
  .dir [(c!"out", .dir [(c!"trees.txt", .file c!"oak")]),
    (c!"w", .dir [(c!"a.txt", .link true [c!"out", c!"trees.txt"]), (c!"b.txt", .link false [c!"a.txt"]), (c!"c.txt", .file c!"cat"),
      (c!"d", .link false [c!"..", c!"out"]), (c!"new.txt", .link true [c!"out", c!"made.txt"]), (c!"self", .link false [c!"self"]),
      (c!"lost.txt", .link true [c!"no", c!"x.txt"])])]

/-- The hypothesis of `write_through`, over two links. -/
example : LeadsTo writeFs [c!"w", c!"b.txt"] (.file c!"oak") :=
  (links_opened writeFs [c!"w", c!"b.txt"] c!"oak").1 (by decide +kernel)

/-- The same place by different paths, and another place. -/
example : SamePlace writeFs [c!"w", c!"d", c!"trees.txt"] [c!"w", c!"b.txt"] := by
  have h1 := (resolve_leads writeFs 40 39 [] [c!"w", c!"d", c!"trees.txt"] [c!"out", c!"trees.txt"]).1 (by decide +kernel)
  have h2 := (resolve_leads writeFs 40 38 [] [c!"w", c!"b.txt"] [c!"out", c!"trees.txt"]).1 (by decide +kernel)
  obtain ⟨u, hu, h1⟩ := h1
  obtain ⟨v, hv, h2⟩ := h2
  exact ⟨_, ⟨u, by omega, h1⟩, ⟨v, by omega, h2⟩⟩

/-- The hypothesis of `write_new`, over a link. -/
example : LeadsNew writeFs 1 [] [c!"w", c!"new.txt"] [c!"out", c!"made.txt"] :=
  .into (by decide) rfl (by simp) (.over (t := [c!"out", c!"made.txt"]) (by decide) rfl
    (.into (x := .dir [(c!"trees.txt", .file c!"oak")]) (by decide) rfl (by simp) (.name (cur := [c!"out"]) (by decide) rfl rfl)))

/-- What is read after a write, by path. -/
def afterWrite (path : Path) : Option (List (Option Str)) :=
  (writeFs.write c!"NEW" path).map fun fs =>
    [fs.read [c!"out", c!"trees.txt"], fs.read [c!"w", c!"a.txt"], fs.read [c!"w", c!"b.txt"], fs.read [c!"w", c!"c.txt"],
      fs.read [c!"w", c!"new.txt"], fs.read [c!"out", c!"made.txt"]]

example : afterWrite [c!"w", c!"b.txt"] = some [some c!"NEW", some c!"NEW", some c!"NEW", some c!"cat", none, none] ∧
    afterWrite [c!"w", c!"new.txt"] = some [some c!"oak", some c!"oak", some c!"oak", some c!"cat", some c!"NEW", some c!"NEW"] ∧
    afterWrite [c!"w", c!"self"] = none ∧ afterWrite [c!"w", c!"lost.txt"] = none ∧ afterWrite [c!"w", c!"d"] = none := by
  decide +kernel

/-- Without links: a file is replaced, and one is made. -/
example : ((asLinks (.dir [(c!"w", .dir [(c!"a.txt", .file c!"old")])])).write c!"NEW" [c!"w", c!"a.txt"]).map
      (fun fs => (fs.read [c!"w", c!"a.txt"], fs.read [c!"w", c!"b.txt"])) = some (some c!"NEW", none) ∧
    ((asLinks (.dir [(c!"w", .dir [(c!"a.txt", .file c!"old")])])).write c!"NEW" [c!"w", c!"b.txt"]).map
      (fun fs => (fs.read [c!"w", c!"a.txt"], fs.read [c!"w", c!"b.txt"])) = some (some c!"old", some c!"NEW") := by
  decide +kernel

end Verif.Props
