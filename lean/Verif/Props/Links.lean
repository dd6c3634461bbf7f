import Verif.Spec.Links
import Verif.Props.System
/-!
# Symbolic links (C90)
-/

namespace Verif.Props
open Verif Verif.Spec

variable {α : Type}

/-- Anything but a link. -/
def NoLink : LNode α → Prop
  | .link _ _ => False
  | _ => True

theorem lat_append (fs : LNode α) (p q : Path) : fs.at (p ++ q) = (fs.at p).bind (·.at q) := by
  induction p generalizing fs with
  | nil => rfl
  | cons n p ih =>
    cases fs with
    | dir es =>
      simp only [LNode.at, List.cons_append]
      cases LNode.entry es n with
      | none => rfl
      | some x => exact ih x
    | _ => rfl

theorem lat_snoc {fs : LNode α} {p : Path} {n : Str} {x : LNode α} (h : fs.at (p ++ [n]) = some x) :
    ∃ es, fs.at p = some (.dir es) ∧ LNode.entry es n = some x := by
  rw [lat_append] at h
  cases hp : fs.at p with
  | none => rw [hp] at h; cases h
  | some y =>
    rw [hp] at h
    simp only [Option.bind_some] at h
    cases y with
    | dir es =>
      simp only [LNode.at] at h
      refine ⟨es, rfl, ?_⟩
      cases he : LNode.entry es n with
      | none => rw [he] at h; cases h
      | some z => rw [he] at h; exact h
    | _ => simp [LNode.at] at h

theorem lat_entry {fs : LNode α} {p : Path} {n : Str} {es : List (Str × LNode α)} (h : fs.at p = some (.dir es)) :
    fs.at (p ++ [n]) = LNode.entry es n := by
  rw [lat_append, h]
  simp only [Option.bind_some, LNode.at]
  cases LNode.entry es n <;> rfl

/-- Where there is something other than a link. -/
def Stands (fs : LNode α) (p : Path) : Prop := ∃ x, fs.at p = some x ∧ NoLink x

theorem advance_append (fs : LNode α) (a b cur : Path) :
    advance fs cur (a ++ b) = match advance fs cur a with
      | .done p => advance fs p b
      | .fail => .fail
      | .link d ab t r => .link d ab t (r ++ b) := by
  induction a generalizing cur with
  | nil => rfl
  | cons n a ih =>
    simp only [List.cons_append, advance]
    cases fs.at cur with
    | none => rfl
    | some x =>
      cases x with
      | dir es =>
        simp only
        split
        · exact ih _
        · cases LNode.entry es n with
          | none => rfl
          | some y => cases y <;> first | rfl | exact ih _
      | _ => rfl

theorem resolve_append (fs : LNode α) (k : Nat) (cur a b : Path) :
    resolve fs k cur (a ++ b) = (resolve fs k cur a).bind fun q => resolve fs q.2 q.1 b := by
  induction k generalizing cur a with
  | zero =>
    unfold resolve
    rw [advance_append]
    cases h : advance fs cur a with
    | done p => simp only [Option.bind_some]
    | fail => rfl
    | link d ab t r => rfl
  | succ k ih =>
    rw [resolve, advance_append]
    rw [resolve]
    cases h : advance fs cur a with
    | done p => simp only [Option.bind_some]; rw [resolve]
    | fail => rfl
    | link d ab t r =>
      simp only
      rw [← List.append_assoc]
      exact ih _ _

/-- Where following a path up to a link ends. -/
def AdvOk (fs : LNode α) : Advance → Prop
  | .done p => Stands fs p
  | .fail => True
  | .link d _ _ _ => Stands fs d

theorem advance_stands {fs : LNode α} {path cur : Path} (h : Stands fs cur) : AdvOk fs (advance fs cur path) := by
  induction path generalizing cur with
  | nil => exact h
  | cons n path ih =>
    obtain ⟨x, hx, hl⟩ := h
    simp only [advance, hx]
    cases x with
    | dir es =>
      by_cases hn : n = c!".."
      · simp only [if_pos hn]
        refine ih ?_
        rcases List.eq_nil_or_concat cur with rfl | ⟨p, m, rfl⟩
        · exact ⟨_, hx, hl⟩
        · rw [List.concat_eq_append] at hx ⊢
          rw [List.dropLast_concat]
          obtain ⟨es', h', -⟩ := lat_snoc hx
          exact ⟨_, h', trivial⟩
      · simp only [if_neg hn]
        cases he : LNode.entry es n with
        | none => trivial
        | some y =>
          have h' : fs.at (cur ++ [n]) = some y := by rw [lat_entry hx, he]
          cases y with
          | link ab t => exact ⟨_, hx, hl⟩
          | _ => exact ih ⟨_, h', trivial⟩
    | _ => trivial

theorem resolve_stands {fs : LNode α} (hr : NoLink fs) {k k' : Nat} {cur path p : Path} (h : Stands fs cur)
    (e : resolve fs k cur path = some (p, k')) : Stands fs p ∧ k' ≤ k := by
  induction k generalizing cur path with
  | zero =>
    have ha := advance_stands (path := path) h
    unfold resolve at e
    cases hv : advance fs cur path with
    | done q => rw [hv] at e ha; cases e; exact ⟨ha, le_refl _⟩
    | fail => rw [hv] at e; cases e
    | link d ab t r => rw [hv] at e; cases e
  | succ k ih =>
    have ha := advance_stands (path := path) h
    rw [resolve] at e
    cases hv : advance fs cur path with
    | done q => rw [hv] at e ha; cases e; exact ⟨ha, le_refl _⟩
    | fail => rw [hv] at e; cases e
    | link d ab t r =>
      rw [hv] at e ha
      have : Stands fs (if ab then [] else d) := by
        split
        · exact ⟨fs, rfl, hr⟩
        · exact ha
      obtain ⟨h1, h2⟩ := ih this e
      exact ⟨h1, by omega⟩

theorem replaced_entry (follow : Path → Bool → Path → FTree α) (cur : Path) (es : List (Str × LNode α)) (n : Str) :
    FTree.entry (replaceLinks.entries follow cur es) n =
      (LNode.entry es n).map (replaceLinks follow (cur ++ [n])) := by
  induction es with
  | nil => rfl
  | cons q es ih =>
    obtain ⟨m, x⟩ := q
    simp only [replaceLinks.entries, FTree.entry, LNode.entry]
    split
    · rename_i h; subst h; rfl
    · exact ih

theorem replaced_names (follow : Path → Bool → Path → FTree α) (cur : Path) (es : List (Str × LNode α)) :
    (replaceLinks.entries follow cur es).map (·.1) = es.map (·.1) := by
  induction es with
  | nil => rfl
  | cons q es ih => simp [replaceLinks.entries, ih]

private theorem broken_at (rest : Path) : (FTree.broken : FTree α).at rest = none ∨ (FTree.broken : FTree α).at rest = some .broken := by
  cases rest with
  | nil => exact .inr rfl
  | cons n rest => exact .inl rfl

/-- What `unlinked` makes of a link in the directory `cur`. -/
def followed (fs : LNode α) (m k : Nat) (cur : Path) (ab : Bool) (t : Path) : FTree α :=
  match m, k with
  | 0, _ => .broken
  | _, 0 => .broken
  | m + 1, k + 1 =>
    match resolve fs k (if ab then [] else cur) t with
    | none => .broken
    | some (p, k') =>
      match fs.at p with
      | none => .broken
      | some x => unlinked fs m k' p x

theorem unlinked_eq (fs : LNode α) (m k : Nat) : unlinked fs m k = replaceLinks (followed fs m k) := by
  cases m with
  | zero => cases k <;> rfl
  | succ m => cases k <;> rfl

theorem resolve_fail {fs : LNode α} {k : Nat} {cur path : Path} (h : advance fs cur path = .fail) :
    resolve fs k cur path = none := by
  rw [resolve.eq_def, h]

theorem resolve_link {fs : LNode α} {k : Nat} {cur path d t r : Path} {ab : Bool}
    (h : advance fs cur path = .link d ab t r) :
    resolve fs k cur path = match k with
      | 0 => none
      | k + 1 => resolve fs k (if ab then [] else d) (t ++ r) := by
  rw [resolve.eq_def, h]
  cases k <;> rfl

theorem resolve_same {fs : LNode α} {k : Nat} {cur path cur' path' : Path}
    (h : advance fs cur path = advance fs cur' path') : resolve fs k cur path = resolve fs k cur' path' := by
  rw [resolve.eq_def, h, resolve.eq_def fs k cur']

/-- The place `o` reached on the disk is shown as `f`. -/
def ShownAs (fs : LNode α) (o : Option (Path × Nat)) (f : Option (FTree α)) : Prop :=
  match o with
  | some (p, k) => ∃ m x, k ≤ m ∧ fs.at p = some x ∧ NoLink x ∧ f = some (unlinked fs m k p x)
  | none => f = none ∨ f = some .broken

/-- Following a path on the disk, and following it with the links replaced. -/
theorem unlinked_at (fs : LNode α) (hr : NoLink fs) (m : Nat) : ∀ (k : Nat), k ≤ m → ∀ (rest : Path), c!".." ∉ rest →
    ∀ (cur : Path) (x : LNode α), fs.at cur = some x → NoLink x →
    ShownAs fs (resolve fs k cur rest) ((unlinked fs m k cur x).at rest) := by
  induction m using Nat.strong_induction_on with
  | _ m ihm =>
  intro k hk rest
  induction rest with
  | nil =>
    intro _ cur x hx hl
    unfold resolve
    exact ⟨m, x, hk, hx, hl, rfl⟩
  | cons n rest ih =>
    intro hd cur x hx hl
    simp only [List.mem_cons, not_or] at hd
    cases x with
    | dir es =>
      have hn : ¬ n = c!".." := fun e => hd.1 e.symm
      rw [unlinked_eq, replaceLinks]
      simp only [FTree.at, replaced_entry]
      cases he : LNode.entry es n with
      | none =>
        rw [resolve_fail (by simp only [advance, hx, if_neg hn, he])]
        exact .inl rfl
      | some y =>
        have hy : fs.at (cur ++ [n]) = some y := by rw [lat_entry hx, he]
        simp only [Option.map_some]
        by_cases hny : NoLink y
        · have ha : advance fs cur (n :: rest) = advance fs (cur ++ [n]) rest := by
            simp only [advance, hx, if_neg hn, he]
            cases y <;> first | exact hny.elim | rfl
          rw [resolve_same ha, ← unlinked_eq]
          exact ih hd.2 _ _ hy hny
        · obtain ⟨ab, t, rfl⟩ : ∃ ab t, y = .link ab t := by
            cases y with
            | link ab t => exact ⟨ab, t, rfl⟩
            | _ => exact absurd trivial hny
          rw [resolve_link (d := cur) (t := t) (r := rest) (ab := ab) (by simp only [advance, hx, if_neg hn, he])]
          simp only [replaceLinks, List.dropLast_concat]
          cases k with
          | zero =>
            have : followed fs m 0 cur ab t = .broken := by cases m <;> rfl
            rw [this]
            exact broken_at rest
          | succ k =>
            cases m with
            | zero => omega
            | succ m =>
              simp only [followed, resolve_append]
              cases hres : resolve fs k (if ab then [] else cur) t with
              | none => exact broken_at rest
              | some q =>
                obtain ⟨p, k'⟩ := q
                have hst : Stands fs (if ab then [] else cur) := by
                  split
                  · exact ⟨fs, rfl, hr⟩
                  · exact ⟨_, hx, trivial⟩
                obtain ⟨⟨z, hz, hzl⟩, hkk⟩ := resolve_stands hr hst hres
                simp only [Option.bind_some, hz]
                exact ihm m (by omega) k' (by omega) rest hd.2 p z hz hzl
    | file c =>
      rw [resolve_fail (by simp only [advance, hx])]
      rw [unlinked_eq]
      exact .inl rfl
    | locked =>
      rw [resolve_fail (by simp only [advance, hx])]
      rw [unlinked_eq]
      exact .inl rfl
    | link ab t => exact hl.elim

theorem proper_noLink {fs : LNode α} (h : Proper fs) : NoLink fs := by
  obtain ⟨es, rfl⟩ := h.root; trivial

/-- What is found at a path on the disk, and with the links replaced. -/
theorem stat_shown (fs : LNode α) (h : Proper fs) (path : Path) (hp : c!".." ∉ path) :
    match fs.stat path with
    | none => (withoutLinks fs).at path = none ∨ (withoutLinks fs).at path = some .broken
    | some (.file c) => (withoutLinks fs).at path = some (.file c)
    | some .locked => (withoutLinks fs).at path = some .broken
    | some (.dir es) => ∃ p fes, fs.at p = some (.dir es) ∧ (withoutLinks fs).at path = some (.dir fes) ∧
        fes.map (·.1) = es.map (·.1)
    | some (.link _ _) => False := by
  have := unlinked_at fs (proper_noLink h) 40 40 (le_refl _) path hp [] fs rfl (proper_noLink h)
  unfold LNode.stat withoutLinks maxLinks
  cases hres : resolve fs 40 [] path with
  | none => rw [hres] at this; exact this
  | some q =>
    obtain ⟨p, k⟩ := q
    rw [hres] at this
    obtain ⟨m, x, -, hx, hl, e⟩ := this
    simp only [hx, e]
    rw [unlinked_eq]
    cases x with
    | file c => rfl
    | locked => rfl
    | dir es => exact ⟨p, _, hx, rfl, replaced_names _ _ _⟩
    | link _ _ => exact hl.elim

/-- **C90.**  A path is a directory exactly if it is one with the links replaced. -/
theorem links_isDir (fs : LNode α) (h : Proper fs) (path : Path) (hp : c!".." ∉ path) :
    fs.isDir path = true ↔ ∃ es, (withoutLinks fs).at path = some (.dir es) := by
  have := stat_shown fs h path hp
  unfold LNode.isDir
  cases hs : fs.stat path with
  | none =>
    rw [hs] at this
    rcases this with e | e <;> simp [e]
  | some x =>
    rw [hs] at this
    cases x with
    | file c => simp only at this; simp [this]
    | locked => simp only at this; simp [this]
    | dir es => obtain ⟨p, fes, -, e, -⟩ := this; simp [e]
    | link _ _ => exact this.elim

/-- **C90.**  Reading a file through links is reading it with the links replaced. -/
theorem links_read (fs : LNode α) (h : Proper fs) (path : Path) (hp : c!".." ∉ path) :
    fs.read path = (withoutLinks fs).read path := by
  have := stat_shown fs h path hp
  unfold LNode.read FTree.read
  cases hs : fs.stat path with
  | none =>
    rw [hs] at this
    rcases this with e | e <;> simp [e]
  | some x =>
    rw [hs] at this
    cases x with
    | file c => simp only at this; simp [this]
    | locked => simp only at this; simp [this]
    | dir es => obtain ⟨p, fes, -, e, -⟩ := this; simp [e]
    | link _ _ => exact this.elim

mutual
/-- How deep a tree is. -/
def height : FTree α → Nat
  | .dir es => heightEntries es + 1
  | _ => 0
/-- The greatest height of the entries. -/
def heightEntries : List (Str × FTree α) → Nat
  | [] => 0
  | (_, x) :: es => max (height x) (heightEntries es)
end

theorem height_entry {es : List (Str × FTree α)} {q : Str × FTree α} (h : q ∈ es) : height q.2 ≤ heightEntries es := by
  induction es with
  | nil => cases h
  | cons a es ih =>
    obtain ⟨n, x⟩ := a
    simp only [heightEntries]
    rcases List.mem_cons.1 h with rfl | h
    · exact le_max_left _ _
    · exact (ih h).trans (le_max_right _ _)

theorem fat_append (fs : FTree α) (p q : Path) : fs.at (p ++ q) = (fs.at p).bind (·.at q) := by
  induction p generalizing fs with
  | nil => rfl
  | cons n p ih =>
    cases fs with
    | dir es =>
      simp only [FTree.at, List.cons_append]
      cases FTree.entry es n with
      | none => rfl
      | some x => exact ih x
    | _ => rfl

theorem fentry_of_mem {es : List (Str × FTree α)} {n : Str} {x : FTree α} (hd : (es.map (·.1)).Nodup)
    (h : (n, x) ∈ es) : FTree.entry es n = some x := by
  induction es with
  | nil => simp at h
  | cons q es ih =>
    obtain ⟨m, y⟩ := q
    simp only [List.map_cons, List.nodup_cons] at hd
    rcases List.mem_cons.1 h with e | h
    · simp only [Prod.mk.injEq] at e
      obtain ⟨rfl, rfl⟩ := e
      simp [FTree.entry]
    · have hne : m ≠ n := by rintro rfl; exact hd.1 (List.mem_map.2 ⟨_, h, rfl⟩)
      simp only [FTree.entry, if_neg hne]
      exact ih hd.2 h

/-- **C90.**  Walking through a directory, following links, finds what walking through it with the links replaced finds, and
always ends: also with links in circles there is a depth that is never passed. -/
theorem links_walk_at (fs : LNode α) (h : Proper fs) (root : Path) (hroot : c!".." ∉ root) (depth : Nat) :
    ∀ (rel : Path) (d : FTree α), c!".." ∉ rel → (withoutLinks fs).at (root ++ rel) = some d → height d ≤ depth →
      fs.walk root (depth + 1) rel = walkNode rel d := by
  induction depth using Nat.strong_induction_on with
  | _ depth ih =>
  intro rel d hrel hd hh
  have hdots : c!".." ∉ root ++ rel := by simp [hroot, hrel]
  have hs := stat_shown fs h (root ++ rel) hdots
  rw [LNode.walk]
  cases hst : fs.stat (root ++ rel) with
  | none =>
    rw [hst] at hs
    rcases hs with e | e
    · rw [hd] at e; cases e
    · rw [hd] at e; cases e; rfl
  | some x =>
    rw [hst] at hs
    cases x with
    | file c => simp only [hd, Option.some.injEq] at hs; subst hs; rfl
    | locked => simp only [hd, Option.some.injEq] at hs; subst hs; rfl
    | link _ _ => exact hs.elim
    | dir es =>
      obtain ⟨p, fes, hp, e, hnames⟩ := hs
      rw [hd] at e
      obtain rfl : d = .dir fes := by simpa using e
      have hu := h.names p es hp
      rw [← hnames] at hu
      have hent : ∀ q ∈ fes, (withoutLinks fs).at (root ++ rel ++ [q.1]) = some q.2 ∧ c!".." ∉ root ++ rel ++ [q.1] := by
        intro q hq
        constructor
        · rw [fat_append, hd]
          simp only [Option.bind_some, FTree.at, fentry_of_mem hu.1 (show (q.1, q.2) ∈ fes from hq)]
        · have : c!".." ≠ q.1 := fun e => hu.2 (e ▸ List.mem_map.2 ⟨q, hq, rfl⟩)
          simp [hroot, hrel, this]
      have hdir : ∀ q ∈ fes, fs.isDir (root ++ rel ++ [q.1]) = match q.2 with | .dir _ => true | _ => false := by
        intro q hq
        obtain ⟨h1, h2⟩ := hent q hq
        have := links_isDir fs h _ h2
        rw [h1] at this
        cases hq2 : q.2 with
        | dir es' => rw [hq2] at this; simpa using this
        | file c => rw [hq2] at this; simpa using this
        | broken => rw [hq2] at this; simpa using this
      have hread : ∀ q ∈ fes, fs.read (root ++ rel ++ [q.1]) = match q.2 with | .file c => some c | _ => none := by
        intro q hq
        obtain ⟨h1, h2⟩ := hent q hq
        rw [links_read fs h _ h2, FTree.read, h1]
        cases q.2 <;> rfl
      have hheight : ∀ q ∈ fes, height q.2 ≤ heightEntries fes := fun q hq => height_entry hq
      have hh' : heightEntries fes + 1 ≤ depth := hh
      simp only [← hnames, walkNode]
      congr 1
      · clear hd hheight hh hh' hu hnames hent e
        induction fes with
        | nil => rfl
        | cons q fes ihf =>
          have ih' := ihf (fun a ha => hdir a (List.mem_cons_of_mem _ ha)) fun a ha => hread a (List.mem_cons_of_mem _ ha)
          have h1 := hdir q (by simp)
          have h2 := hread q (by simp)
          obtain ⟨n, f⟩ := q
          cases f with
          | file c =>
            simp only at h1 h2
            rw [List.map_cons, List.filter_cons_of_pos (by rw [h1]; rfl), List.map_cons, ih', h2]; rfl
          | broken =>
            simp only at h1 h2
            rw [List.map_cons, List.filter_cons_of_pos (by rw [h1]; rfl), List.map_cons, ih', h2]; rfl
          | dir es' =>
            simp only at h1
            rw [List.map_cons, List.filter_cons_of_neg (by rw [h1]; simp), ih']; rfl
      · have hwalk : ∀ q ∈ fes, fs.walk root depth (rel ++ [q.1]) = walkNode (rel ++ [q.1]) q.2 := by
          intro q hq
          obtain ⟨h1, h2⟩ := hent q hq
          obtain ⟨k, rfl⟩ : ∃ k, depth = k + 1 := ⟨depth - 1, by omega⟩
          have := hheight q hq
          refine ih k (by omega) _ _ ?_ (by rw [← List.append_assoc]; exact h1) (by omega)
          simp only [List.mem_append] at h2 ⊢
          tauto
        clear hd hheight hh hh' hu hnames hent e hread
        induction fes with
        | nil => rfl
        | cons q fes ihf =>
          have ih' := ihf (fun a ha => hdir a (List.mem_cons_of_mem _ ha)) fun a ha => hwalk a (List.mem_cons_of_mem _ ha)
          have h1 := hdir q (by simp)
          have h2 := hwalk q (by simp)
          obtain ⟨n, f⟩ := q
          simp only [walkDirs, ← ih', List.map_cons]
          by_cases hn : startsWith n c!"." = true
          · rw [List.filter_cons_of_neg (by simp [hn]), if_pos hn]; rfl
          · rw [if_neg hn]
            cases f with
            | file c => rw [List.filter_cons_of_neg (by rw [h1]; simp)]; rfl
            | broken => rw [List.filter_cons_of_neg (by rw [h1]; simp)]; rfl
            | dir es' =>
              rw [List.filter_cons_of_pos (by rw [h1]; simp [hn]), List.flatMap_cons, h2]

/-- **C90.**  Walking through a directory, following links, finds what walking through it with the links replaced finds, and
always ends: also with links in circles there is a depth that is never passed. -/
theorem links_walk (fs : LNode α) (h : Proper fs) (root : Path) (hroot : c!".." ∉ root) :
    ∃ deep, ∀ depth, deep ≤ depth →
      fs.walk root depth [] = match (withoutLinks fs).at root with
        | none => []
        | some d => walkNode [] d := by
  cases hd : (withoutLinks fs).at root with
  | some d =>
    refine ⟨height d + 1, fun depth hle => ?_⟩
    obtain ⟨k, rfl⟩ : ∃ k, depth = k + 1 := ⟨depth - 1, by omega⟩
    exact links_walk_at fs h root hroot k [] d (by simp) (by simpa using hd) (by omega)
  | none =>
    refine ⟨0, fun depth _ => ?_⟩
    cases depth with
    | zero => rfl
    | succ k =>
      have hs := stat_shown fs h root hroot
      rw [LNode.walk, List.append_nil]
      cases hst : fs.stat root with
      | none => rfl
      | some x =>
        rw [hst] at hs
        cases x with
        | dir es => obtain ⟨p, fes, -, e, -⟩ := hs; rw [hd] at e; cases e
        | _ => rfl

/-- **C90.**  The collections of a root map on a file system with links are those on the file system with the links replaced
by what they point to. -/
theorem links_collections (lib : Lib) (fs : LNode Bytes) (h : Proper fs) (roots : RootMap)
    (hroots : ∀ r ∈ roots, ∀ p, RootItem.path p ∈ r.2 → c!".." ∉ p) :
    ∃ deep, ∀ depth, deep ≤ depth → lRootMapColls lib fs depth roots = byteRootMapColls lib (withoutLinks fs) roots := by
  have hitem : ∀ item, (∀ p, item = RootItem.path p → c!".." ∉ p) → ∃ deep, ∀ depth, deep ≤ depth →
      lRootItemMap lib fs depth item = byteRootItemMap lib (withoutLinks fs) item := by
    intro item hp
    cases item with
    | dict d => exact ⟨0, fun _ _ => rfl⟩
    | path p =>
      obtain ⟨deep, hw⟩ := links_walk fs h p (hp p rfl)
      refine ⟨deep, fun depth hle => ?_⟩
      have hd := links_isDir fs h p (hp p rfl)
      simp only [lRootItemMap, byteRootItemMap, lDirMap, hw depth hle]
      cases hat : (withoutLinks fs).at p with
      | none => rw [hat] at hd; rw [if_neg (by rw [hd]; simp)]
      | some d =>
        rw [hat] at hd
        cases d with
        | dir es => rw [if_pos (by rw [hd]; exact ⟨es, rfl⟩)]; simp only [byteDirMap, hat]
        | file c => rw [if_neg (by rw [hd]; simp)]
        | broken => rw [if_neg (by rw [hd]; simp)]
  have hitems : ∀ (name : Str) (items : List RootItem), (∀ p, RootItem.path p ∈ items → c!".." ∉ p) →
      ∃ deep, ∀ depth, deep ≤ depth →
        (items.flatMap fun item => (lRootItemMap lib fs depth item).map fun q => (combineNameParts [name, q.1], q.2)) =
        items.flatMap fun item => (byteRootItemMap lib (withoutLinks fs) item).map fun q => (combineNameParts [name, q.1], q.2) := by
    intro name items
    induction items with
    | nil => intro _; exact ⟨0, fun _ _ => rfl⟩
    | cons item items ih =>
      intro hp
      obtain ⟨d1, h1⟩ := hitem item fun p e => hp p (by simp [e])
      obtain ⟨d2, h2⟩ := ih fun p hm => hp p (List.mem_cons_of_mem _ hm)
      refine ⟨max d1 d2, fun depth hle => ?_⟩
      rw [List.flatMap_cons, List.flatMap_cons, h1 depth (le_trans (le_max_left _ _) hle),
        h2 depth (le_trans (le_max_right _ _) hle)]
  have hpairs : ∃ deep, ∀ depth, deep ≤ depth → (roots.flatMap fun r => r.2.flatMap fun item =>
      (lRootItemMap lib fs depth item).map fun q => (combineNameParts [r.1, q.1], q.2)) =
      roots.flatMap fun r => r.2.flatMap fun item =>
        (byteRootItemMap lib (withoutLinks fs) item).map fun q => (combineNameParts [r.1, q.1], q.2) := by
    induction roots with
    | nil => exact ⟨0, fun _ _ => rfl⟩
    | cons r roots ih =>
      obtain ⟨d1, h1⟩ := hitems r.1 r.2 fun p hp => hroots r (by simp) p hp
      obtain ⟨d2, h2⟩ := ih fun r hr => hroots r (List.mem_cons_of_mem _ hr)
      refine ⟨max d1 d2, fun depth hle => ?_⟩
      rw [List.flatMap_cons, List.flatMap_cons, h1 depth (le_trans (le_max_left _ _) hle),
        h2 depth (le_trans (le_max_right _ _) hle)]
  obtain ⟨deep, hd⟩ := hpairs
  exact ⟨deep, fun depth hle => by rw [lRootMapColls, hd depth hle, byteRootMapColls]⟩

/-! ## What the links are replaced with -/

theorem leads_of_advance {fs : LNode α} {path cur : Path} :
    (∀ p, advance fs cur path = .done p → Leads fs 0 cur path p) ∧
    (∀ d ab t r, advance fs cur path = .link d ab t r → ∀ used p, Leads fs used (if ab then [] else d) (t ++ r) p →
      Leads fs (used + 1) cur path p) := by
  induction path generalizing cur with
  | nil => exact ⟨fun p e => by cases e; exact .here _, fun d ab t r e => by cases e⟩
  | cons n path ih =>
    cases hx : fs.at cur with
    | none => constructor <;> intros <;> simp_all [advance]
    | some x =>
      cases x with
      | dir es =>
        by_cases hn : n = c!".."
        · subst hn
          obtain ⟨h1, h2⟩ := @ih cur.dropLast
          simp only [advance, hx, if_true]
          exact ⟨fun p e => .up hx (h1 p e), fun d ab t r e used p hl => .up hx (h2 d ab t r e used p hl)⟩
        · simp only [advance, hx, if_neg hn]
          have hat := lat_entry (n := n) hx
          cases he : LNode.entry es n with
          | none => constructor <;> intros <;> simp_all
          | some y =>
            rw [he] at hat
            obtain ⟨h1, h2⟩ := @ih (cur ++ [n])
            cases y with
            | link ab t =>
              refine ⟨fun p e => by simp at e, fun d ab' t' r e used p hl => ?_⟩
              simp only [Advance.link.injEq] at e
              obtain ⟨rfl, rfl, rfl, rfl⟩ := e
              exact .over hn hat hl
            | _ =>
              exact ⟨fun p e => .into hn hat (by simp) (h1 p e),
                fun d ab t r e used p hl => .into hn hat (by simp) (h2 d ab t r e used p hl)⟩
      | _ => constructor <;> intros <;> simp_all [advance]

/-- Following a path step by step finds where it leads. -/
theorem resolve_leads (fs : LNode α) (k k' : Nat) (cur path p : Path) :
    resolve fs k cur path = some (p, k') ↔ ∃ used, used + k' = k ∧ Leads fs used cur path p := by
  constructor
  · induction k generalizing cur path with
    | zero =>
      intro e
      obtain ⟨h1, h2⟩ := @leads_of_advance _ fs path cur
      unfold resolve at e
      cases hv : advance fs cur path with
      | done q => rw [hv] at e; cases e; exact ⟨0, rfl, h1 _ hv⟩
      | fail => rw [hv] at e; cases e
      | link d ab t r => rw [hv] at e; cases e
    | succ k ih =>
      intro e
      obtain ⟨h1, h2⟩ := @leads_of_advance _ fs path cur
      rw [resolve] at e
      cases hv : advance fs cur path with
      | done q => rw [hv] at e; cases e; exact ⟨0, by omega, h1 _ hv⟩
      | fail => rw [hv] at e; cases e
      | link d ab t r =>
        rw [hv] at e
        obtain ⟨used, hu, hl⟩ := ih _ _ e
        exact ⟨used + 1, by omega, h2 _ _ _ _ hv _ _ hl⟩
  · rintro ⟨used, hu, hl⟩
    induction hl generalizing k with
    | here cur => rw [resolve.eq_def]; simp only [advance]; rw [← hu, Nat.zero_add]
    | up hd h ih =>
      rw [← ih k hu]
      exact resolve_same (by simp [advance, hd])
    | into hn hx hl h ih =>
      rw [← ih k hu]
      obtain ⟨es, hd, he⟩ := lat_snoc hx
      refine resolve_same ?_
      simp only [advance, hd, if_neg hn, he]
    | over hn hx h ih =>
      obtain ⟨es, hd, he⟩ := lat_snoc hx
      obtain ⟨k, rfl⟩ : ∃ j, k = j + 1 := ⟨k - 1, by omega⟩
      rw [← ih k (by omega), resolve_link (by simp only [advance, hd, if_neg hn, he]; rfl)]

theorem stat_leads (fs : LNode α) (path : Path) (x : LNode α) : fs.stat path = some x ↔ LeadsTo fs path x := by
  unfold LNode.stat LeadsTo maxLinks
  constructor
  · intro e
    cases hr : resolve fs 40 [] path with
    | none => rw [hr] at e; cases e
    | some q =>
      obtain ⟨p, k⟩ := q
      rw [hr] at e
      obtain ⟨used, hu, hl⟩ := (resolve_leads fs _ _ _ _ _).1 hr
      exact ⟨used, p, by omega, hl, e⟩
  · rintro ⟨used, p, hu, hl, hx⟩
    rw [(resolve_leads fs 40 (40 - used) [] path p).2 ⟨used, by omega, hl⟩]
    exact hx

/-- **C90.**  With the links replaced there is at every path the file it leads to, or a directory with the names of the directory
it leads to. -/
theorem links_replaced (fs : LNode α) (h : Proper fs) (path : Path) (hp : c!".." ∉ path) :
    (∀ c, (withoutLinks fs).at path = some (.file c) ↔ LeadsTo fs path (.file c)) ∧
    (∀ names, (∃ fes, (withoutLinks fs).at path = some (.dir fes) ∧ fes.map (·.1) = names) ↔
      ∃ es, LeadsTo fs path (.dir es) ∧ es.map (·.1) = names) := by
  have hs := stat_shown fs h path hp
  simp only [← stat_leads]
  cases hst : fs.stat path with
  | none =>
    rw [hst] at hs
    rcases hs with e | e <;> simp [e]
  | some x =>
    rw [hst] at hs
    cases x with
    | file c => simp only at hs; simp [hs]
    | locked => simp only at hs; simp [hs]
    | dir es =>
      obtain ⟨p, fes, -, e, en⟩ := hs
      simp [e, en]
    | link _ _ => exact hs.elim

/-- **C90.**  Opening a file reads what its path leads to; if that is no file that can be read, it is an error. -/
theorem links_opened (fs : LNode α) (path : Path) (c : α) : fs.read path = some c ↔ LeadsTo fs path (.file c) := by
  rw [← stat_leads]
  unfold LNode.read
  cases hst : fs.stat path with
  | none => simp
  | some x => cases x <;> simp

/-! ## Files that cannot be opened -/

theorem gathers_opens {fs : FNode} {pat : Str} {m : List (Str × RawColl)} {vs : List Item} (h : Gathers fs pat m vs)
    {n : Str} {p : Path} (hm : (n, RawColl.file p) ∈ m) (hf : fnmatch n pat = true) : ∃ c, fs.read p = some c := by
  induction h with
  | nil => simp at hm
  | skip hn _ ih =>
    rcases List.mem_cons.1 hm with e | hm
    · cases e; rw [hf] at hn; cases hn
    · exact ih hm
  | take hn hh _ ih =>
    rcases List.mem_cons.1 hm with e | hm
    · cases e; cases hh with | file hr _ _ => exact ⟨_, hr⟩
    · exact ih hm

/-- **C90.**  A text file that cannot be opened (a link to nothing, no permission) is a collection nevertheless, and asking
for the values of any pattern matching its name is an error: the values of the other matching collections are not returned. -/
theorem unopenable_raises {R : Type} (cfg : MgrCfg R) (past : Mgr R) (ops : List MgrOp) (w pat n : Str) (p : Path)
    (hr : ∀ op ∈ ops, ReadOnly op) :
    let s := runOps cfg ops (Mgr.clearCache past)
    (n, RawColl.file p) ∈ rootMapColls cfg.lib s.fs cfg.roots → s.fs.read p = none →
    cleanWildcard cfg.wrap w = some pat → fnmatch n pat = true →
    seen (Mgr.getValues cfg w s) = some (.error .os) := by
  intro s hm hno hc hf
  have hi : MgrInv (fun _ => True) cfg s := mgr_ops_inv _ cfg ops _ (mgr_clear_inv _ cfg past trivial) hr (fun _ _ => trivial)
  have hno' : ∀ vs, ¬ Matches cfg s.fs w vs := by
    rintro vs (⟨h, -⟩ | ⟨pat', h, hg⟩)
    · rw [hc] at h; cases h
    · rw [hc] at h; cases h
      obtain ⟨c, e⟩ := gathers_opens hg hm hf
      rw [hno] at e; cases e
  rcases mgr_get_seen_perm cfg s w hi with ⟨-, h⟩ | ⟨u, v, hp, -, -⟩
  · exact h
  · rcases (pureLookup_finds _ _ _ _).1 hp with ⟨h, -⟩ | ⟨h, -⟩ <;> exact absurd h (hno' _)

/-! ### An example -/

/-- Links to a file and to a directory, absolute, relative and upwards; links to nothing, to themselves, and in a circle. -/
def linkFs : LNode Bytes :=
  .dir [
    (c!"outside", .dir [(c!"wilderness.txt", .file (encodeUtf8 c!"plants\nforest")), (c!"back", .link false [c!"..", c!"w", c!"animals"])]),
    (c!"w", .dir [
      (c!"animals", .dir [(c!"internet.txt", .file (encodeUtf8 c!"doggo\ncatto"))]),
      (c!"friendos.txt", .link true [c!"w", c!"animals", c!"internet.txt"]),
      (c!"wow.txt", .link false [c!"animals", c!"internet.txt"]),
      (c!"wildly", .link true [c!"outside"]),
      (c!"self", .link false [c!"self"]),
      (c!"gone.txt", .link true [c!"nowhere"]),
      (c!"secret.txt", .locked)]),
    (c!"circle", .dir [(c!"a.txt", .file (encodeUtf8 c!"a")), (c!"round", .link false [c!"..", c!"circle"])])]

theorem proper_of {es : List (Str × LNode α)} (h : (es.map (·.1)).Nodup ∧ c!".." ∉ es.map (·.1))
    (hc : ∀ q ∈ es, ∀ p es', q.2.at p = some (.dir es') → (es'.map (·.1)).Nodup ∧ c!".." ∉ es'.map (·.1)) :
    ∀ p es', (LNode.dir es).at p = some (.dir es') → (es'.map (·.1)).Nodup ∧ c!".." ∉ es'.map (·.1) := by
  intro p es' hp
  cases p with
  | nil => simp only [LNode.at, Option.some.injEq, LNode.dir.injEq] at hp; subst hp; exact h
  | cons n p =>
    simp only [LNode.at] at hp
    cases he : LNode.entry es n with
    | none => rw [he] at hp; simp at hp
    | some x =>
      rw [he] at hp
      have hm : (n, x) ∈ es := by
        clear hp h hc
        induction es with
        | nil => simp [LNode.entry] at he
        | cons q es ih =>
          obtain ⟨m, y⟩ := q
          simp only [LNode.entry] at he
          split at he
          · rename_i hmn; subst hmn; simp only [Option.some.injEq] at he; subst he; simp
          · exact List.mem_cons_of_mem _ (ih he)
      exact hc _ hm p es' hp

example : Proper linkFs := by
  have leaf : ∀ x : LNode Bytes, (∀ es, x ≠ .dir es) → ∀ p es', x.at p = some (.dir es') →
      (es'.map (·.1)).Nodup ∧ c!".." ∉ es'.map (·.1) := by
    intro x hx p es' h
    cases p with
    | nil => cases h; exact absurd rfl (hx es')
    | cons n p =>
      cases x with
      | dir es => exact absurd rfl (hx es)
      | _ => simp [LNode.at] at h
  refine ⟨⟨_, rfl⟩, proper_of (by decide) ?_⟩
  simp only [List.mem_cons, List.not_mem_nil, or_false]
  rintro q (rfl | rfl | rfl)
  · refine proper_of (by decide) ?_
    simp only [List.mem_cons, List.not_mem_nil, or_false]
    rintro q (rfl | rfl) <;> exact leaf _ (by simp)
  · refine proper_of (by decide) ?_
    simp only [List.mem_cons, List.not_mem_nil, or_false]
    rintro q (rfl | rfl | rfl | rfl | rfl | rfl | rfl)
    · refine proper_of (by decide) ?_
      simp only [List.mem_cons, List.not_mem_nil, or_false]
      rintro q rfl
      exact leaf _ (by simp)
    all_goals exact leaf _ (by simp)
  · refine proper_of (by decide) ?_
    simp only [List.mem_cons, List.not_mem_nil, or_false]
    rintro q (rfl | rfl) <;> exact leaf _ (by simp)

/-- The files found, with what is in them; a link to itself or to nothing counts as a file. -/
example : linkFs.walk [c!"w"] 5 [] =
    [([c!"friendos.txt"], some (encodeUtf8 c!"doggo\ncatto")), ([c!"wow.txt"], some (encodeUtf8 c!"doggo\ncatto")), ([c!"self"], none),
      ([c!"gone.txt"], none), ([c!"secret.txt"], none), ([c!"animals", c!"internet.txt"], some (encodeUtf8 c!"doggo\ncatto")),
      ([c!"wildly", c!"wilderness.txt"], some (encodeUtf8 c!"plants\nforest")),
      ([c!"wildly", c!"back", c!"internet.txt"], some (encodeUtf8 c!"doggo\ncatto"))] := by decide +kernel

/-- Where links lead. -/
example : Leads linkFs 2 [] [c!"w", c!"wildly", c!"back", c!"internet.txt"] [c!"w", c!"animals", c!"internet.txt"] := by
    have h := (resolve_leads linkFs 2 0 [] [c!"w", c!"wildly", c!"back", c!"internet.txt"]
      [c!"w", c!"animals", c!"internet.txt"]).1 (by decide +kernel)
    obtain ⟨used, h1, h2⟩ := h
    exact (show used = 2 by omega) ▸ h2

/-- Links in a circle: the files are found 41 times, and then no more. -/
example : (linkFs.walk [c!"circle"] 60 []).length = 42 ∧ (linkFs.walk [c!"circle"] 42 []).length = 42 ∧
    ((linkFs.walk [c!"circle"] 60 []).filter fun f => f.2.isSome).length = 41 := by decide +kernel

end Verif.Props
