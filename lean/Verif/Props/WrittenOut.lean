import Verif.Spec.WrittenOut
import Verif.Props.Cyclical
import Verif.Props.Listing
import Verif.Props.Chances
import Verif.Props.Language
import Verif.Props.Counting
import Verif.Props.Generate
/-!
# C96 Writing out the values of a wildcard
-/

namespace Verif.Props
open Verif Verif.Spec

section
variable {W : Type} {E : Env W}

theorem WrittenOut.length {items : List Item} {opts : List (Cmd × Rat)} (h : WrittenOut E items opts) :
    opts.length = items.length := by
  induction h with
  | nil => rfl
  | cons _ _ _ ih => simp [ih]

theorem WrittenOut.item {items : List Item} {opts : List (Cmd × Rat)} (h : WrittenOut E items opts) {i : Item}
    (hi : i ∈ items) : ∃ c, E.parse i.content = .ok c ∧ i.content ≠ [] ∧ (c, i.weight.getD 1) ∈ opts := by
  induction h with
  | nil => cases hi
  | cons h1 h2 _ ih =>
    rcases List.mem_cons.1 hi with rfl | hi
    · exact ⟨_, h2, h1, List.mem_cons_self ..⟩
    · obtain ⟨c, h3, h4, h5⟩ := ih hi
      exact ⟨c, h3, h4, List.mem_cons_of_mem _ h5⟩

theorem WrittenOut.option {items : List Item} {opts : List (Cmd × Rat)} (h : WrittenOut E items opts) {p : Cmd × Rat}
    (hp : p ∈ opts) : ∃ i ∈ items, E.parse i.content = .ok p.1 ∧ i.content ≠ [] ∧ p.2 = i.weight.getD 1 := by
  induction h with
  | nil => cases hp
  | cons h1 h2 _ ih =>
    rcases List.mem_cons.1 hp with rfl | hp
    · exact ⟨_, List.mem_cons_self .., h2, h1, rfl⟩
    · obtain ⟨i, h3, h4⟩ := ih hp
      exact ⟨i, List.mem_cons_of_mem _ h3, h4⟩

theorem several_not_single {opts : List (Cmd × Rat)} (h : 2 ≤ opts.length) : ¬ SingleWild opts := by
  rintro ⟨p, m, v, w, rfl⟩
  simp at h

theorem unit_weights_iterate {items : List Item} (h : ∀ i ∈ items, i.weight.getD 1 = 1) :
    iterateWeighted items = items.map (·.content) := by
  unfold iterateWeighted
  induction items with
  | nil => rfl
  | cons i is ih =>
    rw [List.flatMap_cons, ih fun j hj => h j (List.mem_cons_of_mem _ hj)]
    have : i.w = 1 := h i (List.mem_cons_self ..)
    rw [this]
    rfl

/-! ### What can be produced -/

theorem lang_plain_name (hws : E.ignoreWs = false) {name : Str} (hp : E.parse name = .ok (.lit name none))
    {vars : List (Str × Cmd)} {wc : Str} (h : LangPrompt E vars (.inl name) wc) : wc = name := by
  cases h with
  | text h1 h2 h3 =>
    rw [hp] at h2
    cases h2
    cases h3
    simp [hws]

theorem lang_value (hws : E.ignoreWs = false) {x : Str} {c : Cmd} (hx : x ≠ []) (hp : E.parse x = .ok c)
    {vars : List (Str × Cmd)} {s : Str} : LangPrompt E vars (.inl x) s ↔ Lang E vars c s := by
  constructor
  · intro h
    cases h with
    | text h1 h2 h3 =>
      rw [hp] at h2
      cases h2
      simpa [hws] using h3
  · intro h
    have := LangPrompt.text (E := E) hx hp h
    simpa [hws] using this

/-- A wildcard has the texts its written out variant has (if each of its values has a text). -/
theorem written_out_texts (hws : E.ignoreWs = false) [Inhabited W] {name : Str} {items : List Item} {opts : List (Cmd × Rat)}
    (h : SpeltOut E name items opts) (vars : List (Str × Cmd)) (sep : Str) (m m' : Option Method)
    (hdry : ∀ p ∈ opts, ¬ Dry E vars p.1) (s : Str) :
    Lang E vars (.wild (.inl name) m []) s ↔ Lang E vars (.variant opts 1 1 sep m') s := by
  have hlen := WrittenOut.length h.options
  have h2 : 2 ≤ opts.length := by rw [hlen]; exact h.several
  have hne : opts ≠ [] := by intro e; rw [e] at h2; simp at h2
  have hval : ∀ items', Values E name items' → items' = items := by
    rintro items' ⟨w, w', hw⟩
    obtain ⟨w2, hw2⟩ := h.values w
    rw [hw2] at hw
    cases hw
    rfl
  constructor
  · intro hl
    cases hl with
    | wild h1 hv hi hx =>
      obtain rfl := lang_plain_name hws h.plain h1
      obtain rfl := hval _ hv
      obtain ⟨c, h3, h4, h5⟩ := WrittenOut.item h.options hi
      have hc := (lang_value hws h4 h3).1 hx
      have : InBounds opts.length 1 1 [c].length := by
        unfold InBounds
        simp only [List.length_singleton]
        omega
      have := Lang.variant (E := E) (sep := sep) (m := m') (several_not_single h2) hne
        (List.singleton_subperm_iff.2 (List.mem_map_of_mem h5)) this (.cons hc .nil)
      rwa [joined_single] at this
    | wildMissing h1 hv =>
      obtain rfl := lang_plain_name hws h.plain h1
      have := hval _ hv
      rw [← this] at h
      exact absurd h.several (by simp)
  · intro hl
    obtain ⟨w, hw⟩ := h.values default
    have hn : LangPrompt E vars (.inl name) name := (lang_value hws h.named h.plain).2 .lit
    have key : ∀ c ∈ opts.map (·.1), ∀ s, Lang E vars c s → Lang E vars (.wild (.inl name) m []) s := by
      intro c hc s hs
      obtain ⟨p, hp, rfl⟩ := List.mem_map.1 hc
      obtain ⟨i, hi, h3, h4, -⟩ := WrittenOut.option h.options hp
      exact .wild hn ⟨default, w, hw⟩ hi ((lang_value hws h4 h3).2 hs)
    have hone : ∀ k, InBounds opts.length 1 1 k → k = 1 := by
      intro k hk
      unfold InBounds at hk
      omega
    cases hl with
    | variant _ _ hsub hb hall =>
      rename_i cs strs
      have := hone _ hb
      obtain ⟨c, rfl⟩ := List.length_eq_one_iff.1 this
      cases hall with
      | cons hc hnil =>
        cases hnil
        rw [joined_single]
        exact key c (hsub.subset (List.mem_singleton.2 rfl)) _ hc
    | variantSingle => simp at h2
    | variantWild => simp at h2
    | variantDry _ _ hsub hb hall hd =>
      have := hsub.subset (List.mem_append_right _ (List.mem_cons_self ..))
      obtain ⟨p, hp, rfl⟩ := List.mem_map.1 this
      exact absurd hd (hdry p hp)

/-! ### Cyclical sampling -/

theorem cycles_value (hws : E.ignoreWs = false) {x : Str} {c : Cmd} (hp : E.parse x = .ok c)
    {vars : List (Str × Cmd)} {being : List Str} {f : Nat → Str} (h : CyclesPrompt E vars being (.inl x) f) :
    Cycles E vars being c f := by
  cases h with
  | text h1 h2 h3 =>
    rw [hp] at h2
    cases h2
    simpa [hws, squashIf] using h3

/-- Sampled cyclically, a wildcard and its written out variant go through the same texts. -/
theorem written_out_cycles (hws : E.ignoreWs = false) [Inhabited W] {name : Str} {items : List Item}
    {opts : List (Cmd × Rat)} (h : SpeltOut E name items opts) (hu : UnitWeights items opts) {vars : List (Str × Cmd)}
    {being : List Str} (sep : Str) {m : Option Method} {f : Nat → Str}
    (hc : Cycles E vars being (.wild (.inl name) m []) f) : Cycles E vars being (.variant opts 1 1 sep m) f := by
  have hlen := WrittenOut.length h.options
  have h2 : 2 ≤ opts.length := by rw [hlen]; exact h.several
  have hne : opts ≠ [] := by intro e; rw [e] at h2; simp at h2
  have hval : ∀ (p : Nat → Str) (items' : List Item), CyclesPrompt E vars being (.inl name) p →
      (∀ w, ∃ w', E.getValues (p 0) w = .ok items' w') → items' = items := by
    intro p items' hp hw
    have := cycles_value hws h.plain hp
    cases this
    obtain ⟨w1, h1⟩ := hw default
    obtain ⟨w2, h2⟩ := h.values default
    rw [h2] at h1
    cases h1
    rfl
  cases hc with
  | wildMissing hm hp hv =>
    have := hval _ _ hp hv
    rw [← this] at h
    exact absurd h.several (by simp)
  | @wild _ _ _ _ _ p items' g hm hp hv _ _ hx =>
    have e := hval _ _ hp hv
    subst e
    rw [unit_weights_iterate hu] at hx ⊢
    have hex : ∀ c, ∃ g : Nat → Str, (∃ p ∈ opts, p.1 = c) → Cycles E vars being c g := by
      intro c
      by_cases hc : ∃ p ∈ opts, p.1 = c
      · obtain ⟨p, hp, rfl⟩ := hc
        obtain ⟨i, hi, h3, h4, -⟩ := WrittenOut.option h.options hp
        exact ⟨_, fun _ => cycles_value hws h3 (hx i.content (List.mem_map_of_mem hi))⟩
      · exact ⟨fun _ => [], fun h => absurd h hc⟩
    choose F hF using hex
    have hsame : ∀ i ∈ items', ∀ c, E.parse i.content = .ok c → (∃ p ∈ opts, p.1 = c) → g i.content = F c := by
      intro i hi c hc hm
      obtain ⟨c', h3, h4, -⟩ := WrittenOut.item h.options hi
      rw [hc] at h3
      cases h3
      have e1 := hx i.content (List.mem_map_of_mem hi)
      have e2 : CyclesPrompt E vars being (.inl i.content) (F c) := by
        have := CyclesPrompt.text (E := E) h4 hc (hF c hm)
        simpa [hws, squashIf] using this
      exact cyclical_unique E vars being _ _ _ e1 e2 default
    have hsel := variantSelections_one opts hne
    have hv := Cycles.variant (E := E) (vars := vars) (being := being) (opts := opts) (lo := 1) (hi := 1) (sep := sep)
      (m := m) F hm (several_not_single h2) (by rw [hsel]; simpa using hne) hne (fun p hp => hF p.1 ⟨p, hp, rfl⟩)
    convert hv using 1
    funext k
    rw [hsel]
    simp only [roundRobin, List.length_map, hlen]
    have hk : k % items'.length < items'.length := Nat.mod_lt _ (by have := h.several; omega)
    generalize k % items'.length = a at hk ⊢
    generalize k / items'.length = b
    have hidx : ∀ {items : List Item} {opts : List (Cmd × Rat)}, WrittenOut E items opts → ∀ a, a < items.length →
        ∃ i c, i ∈ items ∧ E.parse i.content = .ok c ∧ (∃ p ∈ opts, p.1 = c) ∧
          (items.map (·.content)).getD a [] = i.content ∧ (opts.map fun p => [p.1]).getD a [] = [c] := by
      intro items opts h
      induction h with
      | nil => intro a ha; simp at ha
      | cons h1 h2 _ ih =>
        intro a ha
        cases a with
        | zero => exact ⟨_, _, List.mem_cons_self .., h2, ⟨_, List.mem_cons_self .., rfl⟩, rfl, rfl⟩
        | succ a =>
          obtain ⟨i, c, h3, h4, ⟨p, hp, h5⟩, h6, h7⟩ := ih a (by simpa using ha)
          exact ⟨i, c, List.mem_cons_of_mem _ h3, h4, ⟨p, List.mem_cons_of_mem _ hp, h5⟩, by simpa using h6,
            by simpa using h7⟩
    obtain ⟨i, c, h3, h4, h5, h6, h7⟩ := hidx h.options a hk
    rw [h6, h7, hsame i h3 c h4 h5]
    rfl

/-! ### Combinatorial sampling -/

theorem map_squash_false (l : List Str) : l.map (squashIf false) = l := by
  induction l with
  | nil => rfl
  | cons a l ih => rw [List.map_cons, ih]; rfl

theorem lists_value (hws : E.ignoreWs = false) {x : Str} {c : Cmd} (hx : x ≠ []) (hp : E.parse x = .ok c)
    {vars : List (Str × Cmd)} {being : List Str} {outs : List Str} (h : ListsPrompt E vars being (.inl x) outs) :
    Lists E vars being c outs := by
  cases h with
  | none => exact absurd rfl hx
  | text h1 h2 h3 =>
    rw [hp] at h2
    cases h2
    simpa only [hws, map_squash_false] using h3

theorem variantTexts_one (opts : List (Cmd × Rat)) (h : opts ≠ []) (sep : Str) (F : Cmd → List Str) :
    variantTexts opts 1 1 sep F = (opts.flatMap fun p => F p.1).eraseDups := by
  unfold variantTexts
  rw [variantSelections_one opts h]
  have e1 : ((opts.map fun p => [p.1]).flatMap fun sel => product (sel.map F)) =
      (opts.flatMap fun p => F p.1).map fun s => [s] := by
    clear h
    induction opts with
    | nil => rfl
    | cons p opts ih =>
      simp only [List.map_cons, List.flatMap_cons, ih, List.map_append]
      congr 1
      simp [product, List.map_eq_flatMap]
  rw [e1, List.filter_eq_self.2]
  · have e2 : ∀ n, ∀ l : List Str, l.length ≤ n →
        ((l.map fun s => [s]).eraseDups).map (joined sep) = l.eraseDups := by
      intro n
      induction n with
      | zero => intro l hl; rw [List.length_eq_zero_iff.1 (by omega : l.length = 0)]; rfl
      | succ n ih =>
        intro l hl
        cases l with
        | nil => rfl
        | cons a l =>
          rw [List.map_cons, List.eraseDups_cons, List.eraseDups_cons, List.map_cons, joined_single]
          congr 1
          have : (l.map fun s => [s]).filter (fun b => !b == [a]) = (l.filter fun b => !b == a).map fun s => [s] := by
            rw [List.filter_map]
            congr 1
            apply List.filter_congr
            intro x _
            simp
          rw [this]
          refine ih _ (le_trans (List.length_filter_le _ _) (by simpa using hl))
    exact e2 _ _ (le_refl _)
  · intro t ht
    obtain ⟨s, _, rfl⟩ := List.mem_map.1 ht
    simp

theorem written_out_all (hws : E.ignoreWs = false) [Inhabited W] {name : Str} {items : List Item}
    {opts : List (Cmd × Rat)} (h : SpeltOut E name items opts) (hu : UnitWeights items opts) {vars : List (Str × Cmd)}
    {being : List Str} (sep : Str) {m : Option Method} {outs : List Str}
    (hc : Lists E vars being (.wild (.inl name) m []) outs) :
    ∃ F : Cmd → List Str, (∀ p ∈ opts, Lists E vars being p.1 (F p.1)) ∧ outs = (opts.flatMap fun p => F p.1) ∧
      Lists E vars being (.variant opts 1 1 sep m) outs.eraseDups := by
  have hlen := WrittenOut.length h.options
  have h2 : 2 ≤ opts.length := by rw [hlen]; exact h.several
  have hne : opts ≠ [] := by intro e; rw [e] at h2; simp at h2
  cases hc with
  | @wild _ _ _ _ _ p ps items' g hm hp hv hne' hx =>
    have hpl := lists_value hws h.named h.plain hp
    cases hpl
    have : items' = items := by
      obtain ⟨w1, h1⟩ := hv default
      obtain ⟨w2, h2⟩ := h.values default
      rw [h2] at h1
      cases h1
      rfl
    subst this
    rw [unit_weights_iterate hu] at hx ⊢
    have hex : ∀ c, ∃ g : List Str, (∃ p ∈ opts, p.1 = c) → Lists E vars being c g := by
      intro c
      by_cases hc : ∃ p ∈ opts, p.1 = c
      · obtain ⟨p, hp, rfl⟩ := hc
        obtain ⟨i, hi, h3, h4, -⟩ := WrittenOut.option h.options hp
        exact ⟨_, fun _ => lists_value hws h4 h3 (hx i.content (List.mem_map_of_mem hi))⟩
      · exact ⟨[], fun h => absurd h hc⟩
    choose F hF using hex
    have hv := Lists.variant (E := E) (vars := vars) (being := being) (opts := opts) (lo := 1) (hi := 1) (sep := sep)
      (m := m) F hm (several_not_single h2) hne (fun p hp => hF p.1 ⟨p, hp, rfl⟩)
    rw [variantTexts_one opts hne] at hv
    suffices e : (items'.map (·.content)).flatMap g = opts.flatMap fun p => F p.1 from
      ⟨F, fun p hp => hF p.1 ⟨p, hp, rfl⟩, e, by rw [e]; exact hv⟩
    have hsame : ∀ i ∈ items', ∀ c, E.parse i.content = .ok c → (∃ p ∈ opts, p.1 = c) → g i.content = F c := by
      intro i hi c hc hm
      obtain ⟨c', h3, h4, -⟩ := WrittenOut.item h.options hi
      rw [hc] at h3
      cases h3
      have e1 := hx i.content (List.mem_map_of_mem hi)
      have e2 : ListsPrompt E vars being (.inl i.content) (F c) := by
        have := ListsPrompt.text (E := E) h4 hc (hF c hm)
        simpa only [hws, map_squash_false] using this
      exact lists_unique E vars being _ _ _ e1 e2
    have hidx : ∀ {is : List Item} {os : List (Cmd × Rat)}, WrittenOut E is os → (∀ i ∈ is, i ∈ items') →
        (∀ p ∈ os, p ∈ opts) → (is.map (·.content)).flatMap g = os.flatMap fun p => F p.1 := by
      intro is os h
      induction h with
      | nil => intro _ _; rfl
      | cons h1 h2 _ ih =>
        intro hi ho
        simp only [List.map_cons, List.flatMap_cons]
        rw [ih (fun i h => hi i (List.mem_cons_of_mem _ h)) fun p h => ho p (List.mem_cons_of_mem _ h),
          hsame _ (hi _ (List.mem_cons_self ..)) _ h2 ⟨_, ho _ (List.mem_cons_self ..), rfl⟩]
    exact hidx h.options (fun _ h => h) fun _ h => h

/-- Sampled combinatorially, the written out variant lists the texts of the wildcard, each once. -/
theorem written_out_lists (hws : E.ignoreWs = false) [Inhabited W] {name : Str} {items : List Item}
    {opts : List (Cmd × Rat)} (h : SpeltOut E name items opts) (hu : UnitWeights items opts) {vars : List (Str × Cmd)}
    {being : List Str} (sep : Str) {m : Option Method} {outs : List Str}
    (hc : Lists E vars being (.wild (.inl name) m []) outs) :
    Lists E vars being (.variant opts 1 1 sep m) outs.eraseDups :=
  (written_out_all hws h hu sep hc).choose_spec.2.2

/-! ### Random sampling -/

theorem pickings_one {α : Type} (l : List (α × Rat)) : pickings 1 l = (oneOf l).map fun a => [a] := by
  have h : ∀ t : Rat, (splits l).flatMap (fun x => [([x.1.1], x.1.2 / t * 1)]) = l.map fun x => ([x.1], x.2 / t) := by
    intro t
    induction l with
    | nil => rfl
    | cons a l ih =>
      simp only [splits, List.flatMap_cons, List.map_cons, List.flatMap_map, mul_one, List.singleton_append]
      congr 1
      simpa using ih
  simp only [pickings, Distr.sure, List.map_cons, List.map_nil]
  rw [h]
  simp [oneOf, Distr.map]

theorem variantDist_one (opts : List (Distr Str × Rat)) (h : 2 ≤ opts.length) (sep : Str) :
    variantDist opts 1 1 sep = (oneOf opts).bind fun D => D := by
  have hc : counts opts.length 1 1 = [(1, 1)] := by
    unfold counts
    have h1 : (max 0 (min (min (1 : Int) 1) opts.length)).toNat = 1 := by omega
    have h2 : (max 0 (min (max (1 : Int) 1) opts.length)).toNat = 1 := by omega
    rw [h1, h2]
    simp
  unfold variantDist
  rw [hc]
  have e1 : Distr.bind [(1, 1)] (fun k => ((pickings k opts).bind Distr.all).map (joined sep)) =
      ((pickings 1 opts).bind Distr.all).map (joined sep) := Distr.sure_bind 1 _
  rw [e1, pickings_one, Distr.map_bind, ← Distr.bind_map]
  congr 1
  funext D
  simp only [Distr.all]
  rw [← Distr.bind_map]
  have : (fun a => Distr.map (joined sep) (Distr.map (fun x => a :: x) (Distr.sure []))) = fun a : Str => Distr.sure a := by
    funext a
    simp [Distr.map, Distr.sure, joined_single]
  rw [this, Distr.bind_sure, Distr.map_id]

theorem map_ident {P : Distr Str} : P.map (fun s => s) = P := Distr.map_id P

theorem chance_value (hws : E.ignoreWs = false) {x : Str} {c : Cmd} (hp : E.parse x = .ok c)
    {vars : List (Str × Cmd)} {being : List Str} {P : Distr Str} (h : ChancePrompt E vars being (.inl x) P) :
    Chance E vars being c P := by
  cases h with
  | text h1 h2 h3 =>
    rw [hp] at h2
    cases h2
    simpa [hws, map_ident] using h3

/-- Sampled randomly, a wildcard and its written out variant have the same distribution. -/
theorem written_out_chances (hws : E.ignoreWs = false) [Inhabited W] {name : Str} {items : List Item}
    {opts : List (Cmd × Rat)} (h : SpeltOut E name items opts) {vars : List (Str × Cmd)} {being : List Str} (sep : Str)
    {m : Option Method} {P : Distr Str} (hc : Chance E vars being (.wild (.inl name) m []) P) :
    Chance E vars being (.variant opts 1 1 sep m) P := by
  have hlen := WrittenOut.length h.options
  have h2 : 2 ≤ opts.length := by rw [hlen]; exact h.several
  have hname : ∀ PW, ChancePrompt E vars being (.inl name) PW → PW = [(name, 1)] := by
    intro PW hp
    have := chance_value hws h.plain hp
    cases this with
    | cmd _ h => cases h; rfl
  cases hc with
  | cmd hm hc =>
    refine .cmd hm ?_
    cases hc with
    | wildMissing hp hv =>
      obtain rfl := hname _ hp
      have := hv _ (List.mem_singleton.2 rfl) default
      obtain ⟨w, hw⟩ := h.values default
      rw [hw] at this
      cases this
      exact absurd h.several (by simp)
    | @wild _ _ _ _ _ PW its Q hp hv hnn hpos hx =>
      obtain rfl := hname _ hp
      have hmem : (name, (1 : Rat)) ∈ [(name, (1 : Rat))] := List.mem_singleton.2 rfl
      have e : its name = items := by
        have := hv _ hmem default
        obtain ⟨w, hw⟩ := h.values default
        rw [hw] at this
        cases this
        rfl
      have hnn := hnn _ hmem
      have hpos := hpos _ hmem
      have hx := hx _ hmem
      simp only [e] at hnn hpos hx
      have e1 : Distr.bind [(name, 1)] (fun wc => (oneOf ((its wc).map fun i => (i, i.weight.getD 1))).bind Q) =
          (oneOf (items.map fun i => (i, i.weight.getD 1))).bind Q := by
        rw [← e]; exact Distr.sure_bind name _
      rw [e1]
      have hall : ∀ {is : List Item} {os : List (Cmd × Rat)}, WrittenOut E is os → (∀ i ∈ is, i ∈ items) →
          ChanceAll E vars being (os.map (·.1)) (is.map Q) ∧
          (is.map Q).zip (os.map (·.2)) = is.map (fun i => (Q i, i.weight.getD 1)) ∧
          total os = total (is.map fun i => (i, i.weight.getD 1)) := by
        intro is os h
        induction h with
        | nil => intro _; exact ⟨.nil, rfl, rfl⟩
        | cons h1 h2 _ ih =>
          intro hi
          obtain ⟨h3, h4, h5⟩ := ih fun i h => hi i (List.mem_cons_of_mem _ h)
          refine ⟨.cons (chance_value hws h2 (hx _ (hi _ (List.mem_cons_self ..)))) h3, ?_, ?_⟩
          · simp only [List.map_cons, List.zip_cons_cons, h4]
          · simp only [total, List.map_cons, List.sum_cons] at h5 ⊢
            rw [h5]
      obtain ⟨h3, h4, h5⟩ := hall h.options fun _ h => h
      have hv := ChanceIn.variant (E := E) (vars := vars) (being := being) (opts := opts) (lo := 1) (hi := 1) (sep := sep)
        (m := m) (Ds := items.map Q) h2 (by decide) ?_ ?_ (fun h => absurd h (by decide)) h3
      · convert hv using 1
        rw [variantDist_one _ (by rw [h4]; simpa using h.several), h4]
        have e2 : oneOf (items.map fun i => (Q i, i.weight.getD 1)) =
            (oneOf (items.map fun i => (i, i.weight.getD 1))).map Q := by
          simp [oneOf, Distr.map, total, Function.comp_def]
        rw [e2, Distr.map_bind]
      · intro p hp
        obtain ⟨i, hi, -, -, h6⟩ := WrittenOut.option h.options hp
        rw [h6]
        exact hnn i hi
      · rw [h5]
        obtain ⟨i, hi, h6⟩ := hpos
        unfold total
        rw [List.map_map]
        have : ∀ l : List Item, (∀ j ∈ l, 0 ≤ j.weight.getD 1) → 0 ≤ (l.map ((fun x : Item × Rat => x.2) ∘ fun i => (i, i.weight.getD 1))).sum := by
          intro l hl
          refine List.sum_nonneg fun x hx => ?_
          obtain ⟨j, hj, rfl⟩ := List.mem_map.1 hx
          exact hl j hj
        obtain ⟨a, b, e⟩ := List.append_of_mem hi
        rw [e] at hnn ⊢
        rw [List.map_append, List.map_cons, List.sum_append, List.sum_cons]
        have h7 := this a fun j hj => hnn j (by simp [hj])
        have h8 := this b fun j hj => hnn j (by simp [hj])
        have h9 : 0 < ((fun x : Item × Rat => x.2) ∘ fun i : Item => (i, i.weight.getD 1)) i := h6
        linarith

/-! ### In a template -/

section
variable {ok : List Item → List (Cmd × Rat) → Prop}

theorem spelt_truthy {c c' : Cmd} (h : SpeltCmd E ok c c') : c.truthy = c'.truthy := by
  cases h with
  | part h =>
    cases h with
    | same _ => rfl
    | @spell name items opts sep m _ _ h1 h2 h3 =>
      have e1 := WrittenOut.length h1.options
      have e2 := h1.several
      cases opts with
      | nil => simp at e1; omega
      | cons a l => rfl
  | seq h =>
    cases h with
    | nil => rfl
    | same _ => rfl
    | spell _ _ _ => rfl

variable [Inhabited W] (hws : E.ignoreWs = false)

theorem spelt_lang_assigned {vars : List (Str × Cmd)} {cs cs' k : List Cmd} {new : List (Str × Cmd)}
    (h : SpeltTokens E ok cs cs') (ha : Assigned E vars cs k new) :
    ∃ k', Assigned E vars cs' k' new ∧ SpeltTokens E ok k k' := by
  induction h generalizing k new with
  | nil => cases ha; exact ⟨_, .nil, .nil⟩
  | same _ ih =>
    cases ha with
    | tok hc ha => obtain ⟨k', h1, h2⟩ := ih ha; exact ⟨_, .tok hc h1, .same h2⟩
    | set hv ha => obtain ⟨k', h1, h2⟩ := ih ha; exact ⟨_, .set hv h1, h2⟩
  | spell h1 h2 _ ih =>
    cases ha with
    | tok hc ha => obtain ⟨k', h3, h4⟩ := ih ha; exact ⟨_, .tok (by simp) h3, .spell h1 h2 h4⟩

theorem spelt_lang_assigned' {vars : List (Str × Cmd)} {cs cs' k' : List Cmd} {new : List (Str × Cmd)}
    (h : SpeltTokens E ok cs cs') (ha : Assigned E vars cs' k' new) :
    ∃ k, Assigned E vars cs k new ∧ SpeltTokens E ok k k' := by
  induction h generalizing k' new with
  | nil => cases ha; exact ⟨_, .nil, .nil⟩
  | same _ ih =>
    cases ha with
    | tok hc ha => obtain ⟨k', h1, h2⟩ := ih ha; exact ⟨_, .tok hc h1, .same h2⟩
    | set hv ha => obtain ⟨k', h1, h2⟩ := ih ha; exact ⟨_, .set hv h1, h2⟩
  | spell h1 h2 _ ih =>
    cases ha with
    | tok hc ha => obtain ⟨k', h3, h4⟩ := ih ha; exact ⟨_, .tok (by simp) h3, .spell h1 h2 h4⟩

theorem spelt_cycles_assigned {vars : List (Str × Cmd)} {being : List Str} {cs cs' k : List Cmd} {new : List (Str × Cmd)}
    (h : SpeltTokens E ok cs cs') (ha : CyclesAssigned E vars being cs k new) :
    ∃ k', CyclesAssigned E vars being cs' k' new ∧ SpeltTokens E ok k k' := by
  induction h generalizing k new with
  | nil => cases ha; exact ⟨_, .nil, .nil⟩
  | same _ ih =>
    cases ha with
    | tok hc ha => obtain ⟨k', h1, h2⟩ := ih ha; exact ⟨_, .tok hc h1, .same h2⟩
    | keep hv ha => obtain ⟨k', h1, h2⟩ := ih ha; exact ⟨_, .keep hv h1, h2⟩
    | plain hv ha => obtain ⟨k', h1, h2⟩ := ih ha; exact ⟨_, .plain hv h1, h2⟩
    | literal hv ha => obtain ⟨k', h1, h2⟩ := ih ha; exact ⟨_, .literal hv h1, h2⟩
    | immediate hv hn hc ha => obtain ⟨k', h1, h2⟩ := ih ha; exact ⟨_, .immediate hv hn hc h1, h2⟩
  | spell h1 h2 _ ih =>
    cases ha with
    | tok hc ha => obtain ⟨k', h3, h4⟩ := ih ha; exact ⟨_, .tok (by simp) h3, .spell h1 h2 h4⟩

theorem spelt_lists_assigned {vars : List (Str × Cmd)} {being : List Str} {cs cs' k : List Cmd} {new : List (Str × Cmd)}
    (h : SpeltTokens E ok cs cs') (ha : ListsAssigned E vars being cs k new) :
    ∃ k', ListsAssigned E vars being cs' k' new ∧ SpeltTokens E ok k k' := by
  induction h generalizing k new with
  | nil => cases ha; exact ⟨_, .nil, .nil⟩
  | same _ ih =>
    cases ha with
    | tok hc ha => obtain ⟨k', h1, h2⟩ := ih ha; exact ⟨_, .tok hc h1, .same h2⟩
    | keep hv ha => obtain ⟨k', h1, h2⟩ := ih ha; exact ⟨_, .keep hv h1, h2⟩
    | plain hv ha => obtain ⟨k', h1, h2⟩ := ih ha; exact ⟨_, .plain hv h1, h2⟩
    | literal hv ha => obtain ⟨k', h1, h2⟩ := ih ha; exact ⟨_, .literal hv h1, h2⟩
    | immediate hv hn hc ha => obtain ⟨k', h1, h2⟩ := ih ha; exact ⟨_, .immediate hv hn hc h1, h2⟩
  | spell h1 h2 _ ih =>
    cases ha with
    | tok hc ha => obtain ⟨k', h3, h4⟩ := ih ha; exact ⟨_, .tok (by simp) h3, .spell h1 h2 h4⟩

theorem spelt_chance_assign {vars : List (Str × Cmd)} {being : List Str} {cs cs' k : List Cmd}
    {N : Distr (List (Str × Cmd))} (h : SpeltTokens E ok cs cs') (ha : ChanceAssign E vars being cs k N) :
    ∃ k', ChanceAssign E vars being cs' k' N ∧ SpeltTokens E ok k k' := by
  induction h generalizing k N with
  | nil => cases ha; exact ⟨_, .nil, .nil⟩
  | same _ ih =>
    cases ha with
    | tok hc ha => obtain ⟨k', h1, h2⟩ := ih ha; exact ⟨_, .tok hc h1, .same h2⟩
    | keep hv ha => obtain ⟨k', h1, h2⟩ := ih ha; exact ⟨_, .keep hv h1, h2⟩
    | plain hv ha => obtain ⟨k', h1, h2⟩ := ih ha; exact ⟨_, .plain hv h1, h2⟩
    | literal hv ha => obtain ⟨k', h1, h2⟩ := ih ha; exact ⟨_, .literal hv h1, h2⟩
    | immediate hv hn hc ha => obtain ⟨k', h1, h2⟩ := ih ha; exact ⟨_, .immediate hv hn hc h1, h2⟩
  | spell h1 h2 _ ih =>
    cases ha with
    | tok hc ha => obtain ⟨k', h3, h4⟩ := ih ha; exact ⟨_, .tok (by simp) h3, .spell h1 h2 h4⟩

include hws

theorem spelt_cycles_all {vars : List (Str × Cmd)} {being : List Str} {cs cs' : List Cmd} {fs : List (Nat → Str)}
    (h : SpeltTokens E UnitWeights cs cs') (ha : CyclesAll E vars being cs fs) : CyclesAll E vars being cs' fs := by
  induction h generalizing fs with
  | nil => exact ha
  | same _ ih => cases ha with | cons h1 h2 => exact .cons h1 (ih h2)
  | spell h1 h2 _ ih => cases ha with | cons h3 h4 => exact .cons (written_out_cycles hws h1 h2 _ h3) (ih h4)

theorem spelt_cycles {vars : List (Str × Cmd)} {being : List Str} {c c' : Cmd} {f : Nat → Str}
    (h : SpeltCmd E UnitWeights c c') (hc : Cycles E vars being c f) : Cycles E vars being c' f := by
  cases h with
  | part h => cases spelt_cycles_all hws h (.cons hc .nil) with | cons h _ => exact h
  | seq h =>
    cases hc with
    | seq hm ha hall =>
      obtain ⟨k', h1, h2⟩ := spelt_cycles_assigned h ha
      exact .seq hm h1 (spelt_cycles_all hws h2 hall)

/-- Cyclical sampling does not notice that wildcards (all of whose values have weight one) are written out. -/
theorem spelling_out_cyclical {p p' : Prompt} (h : SpeltPrompt E UnitWeights p p') (vars : List (Str × Cmd))
    (being : List Str) (f : Nat → Str) (hc : CyclesPrompt E vars being p f) (k : Nat) (w : W) :
    ∃ N, ∀ fuel ≥ N, (samplePrompts E fuel ⟨.cyc, vars, being⟩ p' k w).1 =
      (samplePrompts E fuel ⟨.cyc, vars, being⟩ p k w).1 ∧
      (samplePrompts E fuel ⟨.cyc, vars, being⟩ p k w).1.length = k := by
  have hc' : CyclesPrompt E vars being p' f := by
    cases h with
    | cmd h => cases hc with | cmd h1 h2 => exact .cmd (by rw [← spelt_truthy h]; exact h1) (spelt_cycles hws h h2)
    | text h1 h2 h3 h4 h =>
      cases hc with
      | text h5 h6 h7 =>
        rw [h3] at h6
        cases h6
        exact .text h2 h4 (spelt_cycles hws h h7)
  obtain ⟨N, h1⟩ := cyclical_closed_form E vars being p f hc k w
  obtain ⟨N', h2⟩ := cyclical_closed_form E vars being p' f hc' k w
  refine ⟨max N N', fun fuel hf => ⟨?_, ?_⟩⟩
  · rw [(h1 fuel (by omega)).1, (h2 fuel (by omega)).1]
  · rw [(h1 fuel (by omega)).1]; simp

theorem spelt_lists_all {vars : List (Str × Cmd)} {being : List Str} {cs cs' : List Cmd} {outss : List (List Str)}
    (h : SpeltTokens E (DistinctTexts E) cs cs') (ha : ListsTokens E vars being cs outss) :
    ListsTokens E vars being cs' outss := by
  induction h generalizing outss with
  | nil => exact ha
  | same _ ih => cases ha with | cons h1 h2 h3 => exact .cons h1 h2 (ih h3)
  | @spell _ _ _ sep _ _ _ h1 h2 _ ih =>
    cases ha with
    | cons h3 h4 h5 =>
      obtain ⟨F, h6, h7, h8⟩ := written_out_all hws h1 h2.1 sep h3
      have := h2.2 _ _ F h6
      rw [← h7] at this
      rw [eraseDups_of_nodup this] at h8
      exact .cons h8 h4 (ih h5)

/-- Combinatorial sampling does not notice that wildcards (all of whose values have weight one, and whose texts are
different) are written out. -/
theorem spelling_out_combinatorial {p p' : Prompt} (h : SpeltPrompt E (DistinctTexts E) p p') (vars : List (Str × Cmd))
    (being : List Str) (outs : List Str) (hc : ListsPrompt E vars being p outs) (w : W) :
    ∃ N, ∀ fuel ≥ N, ∀ k, (samplePrompts E fuel ⟨.comb, vars, being⟩ p' k w).1 =
      (samplePrompts E fuel ⟨.comb, vars, being⟩ p k w).1 ∧
      (samplePrompts E fuel ⟨.comb, vars, being⟩ p k w).1 = outs.take k := by
  have key : ∀ {c c' : Cmd} {outs : List Str}, SpeltCmd E (DistinctTexts E) c c' → Lists E vars being c outs →
      Lists E vars being c' outs := by
    intro c c' outs h hc
    cases h with
    | part h =>
      cases h with
      | same _ => exact hc
      | @spell _ _ _ sep _ _ _ h1 h2 _ =>
        obtain ⟨F, h6, h7, h8⟩ := written_out_all hws h1 h2.1 sep hc
        have := h2.2 _ _ F h6
        rw [← h7] at this
        rwa [eraseDups_of_nodup this] at h8
    | seq h =>
      cases hc with
      | seq hm ha hall =>
        obtain ⟨k', h1, h2⟩ := spelt_lists_assigned h ha
        exact .seq hm h1 (spelt_lists_all hws h2 hall)
  have hc' : ListsPrompt E vars being p' outs := by
    cases h with
    | cmd h =>
      cases hc with
      | cmd h1 h2 => exact .cmd (by rw [← spelt_truthy h]; exact h1) (key h h2)
      | empty h1 => exact .empty (by rw [← spelt_truthy h]; exact h1)
    | text h1 h2 h3 h4 h =>
      cases hc with
      | none => exact absurd rfl h1
      | text h5 h6 h7 =>
        rw [h3] at h6
        cases h6
        exact .text h2 h4 (key h h7)
  obtain ⟨N, h1⟩ := combinatorial_lists E vars being p outs hc w
  obtain ⟨N', h2⟩ := combinatorial_lists E vars being p' outs hc' w
  refine ⟨max N N', fun fuel hf k => ⟨?_, ?_⟩⟩
  · rw [(h1 fuel (by omega) k).1, (h2 fuel (by omega) k).1]
  · rw [(h1 fuel (by omega) k).1]

theorem spelt_chance_all {vars : List (Str × Cmd)} {being : List Str} {cs cs' : List Cmd} {Ds : List (Distr Str)}
    (h : SpeltTokens E ok cs cs') (ha : ChanceAll E vars being cs Ds) : ChanceAll E vars being cs' Ds := by
  induction h generalizing Ds with
  | nil => exact ha
  | same _ ih => cases ha with | cons h1 h2 => exact .cons h1 (ih h2)
  | spell h1 h2 _ ih => cases ha with | cons h3 h4 => exact .cons (written_out_chances hws h1 _ h3) (ih h4)

theorem spelt_chance {vars : List (Str × Cmd)} {being : List Str} {c c' : Cmd} {P : Distr Str}
    (h : SpeltCmd E ok c c') (hc : Chance E vars being c P) : Chance E vars being c' P := by
  cases h with
  | part h => cases spelt_chance_all hws h (.cons hc .nil) with | cons h _ => exact h
  | seq h =>
    cases hc with
    | cmd hm hc =>
      cases hc with
      | seq ha hall =>
        obtain ⟨k', h1, h2⟩ := spelt_chance_assign h ha
        exact .cmd hm (.seq h1 fun x hx => spelt_chance_all hws h2 (hall x hx))

/-- Writing out wildcards leaves the distribution of the prompts as it is. -/
theorem spelling_out_chances {p p' : Prompt} (h : SpeltPrompt E ok p p') (vars : List (Str × Cmd)) (being : List Str)
    (P : Distr Str) (hc : ChancePrompt E vars being p P) : ChancePrompt E vars being p' P := by
  cases h with
  | cmd h => cases hc with | cmd h1 h2 => exact .cmd (by rw [← spelt_truthy h]; exact h1) (spelt_chance hws h h2)
  | text h1 h2 h3 h4 h =>
    cases hc with
    | text h5 h6 h7 =>
      rw [h3] at h6
      cases h6
      exact .text h2 h4 (spelt_chance hws h h7)

/-- With a fair source of random numbers, every prompt is as probable for the one template as for the other. -/
theorem spelling_out_random (hA : E.rng.arith = .exact) {p p' : Prompt} (h : SpeltPrompt E ok p p')
    (vars : List (Str × Cmd)) (being : List Str) (P : Distr Str) (hc : ChancePrompt E vars being p P)
    (pr : (W → Prop) → ℝ) (hf : Fair E.rng pr) (s : Str) :
    pr (Samples E vars being p' [s]) = pr (Samples E vars being p [s]) := by
  rw [prompt_probability E hA vars being p P hc pr hf s,
    prompt_probability E hA vars being p' P (spelling_out_chances hws h vars being P hc) pr hf s]

theorem spelt_lang_all {vars : List (Str × Cmd)} {cs cs' : List Cmd} {strs : List Str}
    (h : SpeltTokens E (NoneDry E) cs cs') : LangAll E vars cs strs ↔ LangAll E vars cs' strs := by
  induction h generalizing strs with
  | nil => exact Iff.rfl
  | same _ ih =>
    constructor
    · intro ha; cases ha with | cons h1 h2 => exact .cons h1 (ih.1 h2)
    · intro ha; cases ha with | cons h1 h2 => exact .cons h1 (ih.2 h2)
  | @spell _ _ _ sep m _ _ h1 h2 _ ih =>
    constructor
    · intro ha
      cases ha with
      | cons h3 h4 => exact .cons ((written_out_texts hws h1 vars sep m m (h2 vars) _).1 h3) (ih.1 h4)
    · intro ha
      cases ha with
      | cons h3 h4 => exact .cons ((written_out_texts hws h1 vars sep m m (h2 vars) _).2 h3) (ih.2 h4)

/-- The two templates have the same language. -/
theorem spelling_out_texts {p p' : Prompt} (h : SpeltPrompt E (NoneDry E) p p') (vars : List (Str × Cmd)) (s : Str) :
    LangPrompt E vars p s ↔ LangPrompt E vars p' s := by
  have key : ∀ {c c' : Cmd} {s : Str}, SpeltCmd E (NoneDry E) c c' → (Lang E vars c s ↔ Lang E vars c' s) := by
    intro c c' s h
    cases h with
    | part h =>
      constructor
      · intro hc; cases (spelt_lang_all hws h).1 (.cons hc .nil) with | cons h _ => exact h
      · intro hc; cases (spelt_lang_all hws h).2 (.cons hc .nil) with | cons h _ => exact h
    | seq h =>
      constructor
      · intro hc
        cases hc with
        | seq ha hall =>
          obtain ⟨k', h1, h2⟩ := spelt_lang_assigned h ha
          exact .seq h1 ((spelt_lang_all hws h2).1 hall)
        | seqPad ha hall =>
          obtain ⟨k', h1, h2⟩ := spelt_lang_assigned h ha
          exact .seqPad h1 ((spelt_lang_all hws h2).1 hall)
      · intro hc
        cases hc with
        | seq ha hall =>
          obtain ⟨k', h1, h2⟩ := spelt_lang_assigned' h ha
          exact .seq h1 ((spelt_lang_all hws h2).2 hall)
        | seqPad ha hall =>
          obtain ⟨k', h1, h2⟩ := spelt_lang_assigned' h ha
          exact .seqPad h1 ((spelt_lang_all hws h2).2 hall)
  cases h with
  | cmd h =>
    constructor
    · intro hs; cases hs with | cmd h1 h2 => exact .cmd (by rw [← spelt_truthy h]; exact h1) ((key h).1 h2)
    · intro hs; cases hs with | cmd h1 h2 => exact .cmd (by rw [spelt_truthy h]; exact h1) ((key h).2 h2)
  | text h1 h2 h3 h4 h =>
    constructor
    · intro hs
      cases hs with
      | text h5 h6 h7 =>
        rw [h3] at h6
        cases h6
        exact .text h2 h4 ((key h).1 h7)
    · intro hs
      cases hs with
      | text h5 h6 h7 =>
        rw [h4] at h6
        cases h6
        exact .text h1 h3 ((key h).2 h7)

end

end

/-! ### An example -/

/-- The wildcard `colors` has the values red and blue. -/
theorem colors_spelt : SpeltOut genEnv c!"colors" [⟨c!"red", none⟩, ⟨c!"blue", none⟩]
    [(.lit c!"red" none, 1), (.lit c!"blue" none, 1)] where
  plain := by decide +kernel
  named := by decide
  values w := ⟨w, rfl⟩
  options := .cons (by decide) (by decide +kernel) (.cons (by decide) (by decide +kernel) .nil)
  several := by decide

theorem colors_template {ok : List Item → List (Cmd × Rat) → Prop}
    (h : ok [⟨c!"red", none⟩, ⟨c!"blue", none⟩] [(.lit c!"red" none, 1), (.lit c!"blue" none, 1)]) :
    SpeltPrompt genEnv ok (.inl c!"a __colors__ ball") (.inl c!"a {red|blue} ball") :=
  .text (c := .seq [.lit c!"a " none, .wild (.inl c!"colors") none [], .lit c!" ball" none] [] none)
    (c' := .seq [.lit c!"a " none, .variant [(.lit c!"red" none, 1), (.lit c!"blue" none, 1)] 1 1 c!"," none,
      .lit c!" ball" none] [] none)
    (by decide) (by decide) (by decide +kernel) (by decide +kernel) (.seq (.same (.spell colors_spelt h (.same .nil))))

/-- The values have weight one, have texts, and these are different. -/
example : SpeltPrompt genEnv UnitWeights (.inl c!"a __colors__ ball") (.inl c!"a {red|blue} ball") :=
  colors_template (by intro i hi; simp at hi; rcases hi with rfl | rfl <;> rfl)

example : SpeltPrompt genEnv (NoneDry genEnv) (.inl c!"a __colors__ ball") (.inl c!"a {red|blue} ball") :=
  colors_template (by
    intro vars p hp
    simp at hp
    rcases hp with rfl | rfl <;> exact lit_not_dry _ _ _ _)

example : SpeltPrompt genEnv (DistinctTexts genEnv) (.inl c!"a __colors__ ball") (.inl c!"a {red|blue} ball") :=
  colors_template ⟨by intro i hi; simp at hi; rcases hi with rfl | rfl <;> rfl, by
    intro vars being f hf
    have h1 := hf _ (List.mem_cons_self ..)
    have h2 := hf _ (List.mem_cons_of_mem _ (List.mem_cons_self ..))
    simp only [List.flatMap_cons, List.flatMap_nil]
    generalize f (.lit c!"red" none) = a at h1 ⊢
    generalize f (.lit c!"blue" none) = b at h2 ⊢
    cases h1
    cases h2
    decide⟩

/-- The first template is one that cyclical sampling goes through, and one that combinatorial sampling lists. -/
example : ∃ f, CyclesPrompt genEnv [] [] (.inl c!"a __colors__ ball") f :=
  ⟨_, .text (c := .seq [.lit c!"a " none, .wild (.inl c!"colors") none [], .lit c!" ball" none] [] none)
    (by decide) (by decide +kernel) (.seq (by simp) (.tok (by simp) (.tok (by simp) (.tok (by simp) .nil)))
      (.cons (.lit (by simp)) (.cons (.wild (items := [⟨c!"red", none⟩, ⟨c!"blue", none⟩]) (fun x _ => squashIf false x)
        (by simp) (.text (c := .lit c!"colors" none) (by decide) (by decide +kernel) (.lit (by simp)))
        (fun w => ⟨w, rfl⟩) (by simp) (by decide +kernel) (by
          intro x hx
          have : x = c!"red" ∨ x = c!"blue" := by
            have e : iterateWeighted [⟨c!"red", none⟩, ⟨c!"blue", none⟩] = [c!"red", c!"blue"] := by decide +kernel
            rw [e] at hx; simpa using hx
          rcases this with rfl | rfl
          · exact .text (c := .lit c!"red" none) (f := fun _ => c!"red") (by decide) (by decide +kernel) (.lit (by simp))
          · exact .text (c := .lit c!"blue" none) (f := fun _ => c!"blue") (by decide) (by decide +kernel) (.lit (by simp))))
        (.cons (.lit (by simp)) .nil))))⟩

example : ∃ outs, ListsPrompt genEnv [] [] (.inl c!"a __colors__ ball") outs :=
  ⟨_, .text (c := .seq [.lit c!"a " none, .wild (.inl c!"colors") none [], .lit c!" ball" none] [] none)
    (by decide) (by decide +kernel) (.seq (.inl rfl) (.tok (by simp) (.tok (by simp) (.tok (by simp) .nil)))
      (.cons (.lit (.inl rfl)) (by simp) (.cons (.wild (p := c!"colors") (ps := [])
        (items := [⟨c!"red", none⟩, ⟨c!"blue", none⟩]) (fun x => [squashIf false x])
        (.inl rfl) (.text (c := .lit c!"colors" none) (by decide) (by decide +kernel) (.lit (.inl rfl)))
        (fun w => ⟨w, rfl⟩) (by simp) (by
          intro x hx
          have : x = c!"red" ∨ x = c!"blue" := by
            have e : iterateWeighted [⟨c!"red", none⟩, ⟨c!"blue", none⟩] = [c!"red", c!"blue"] := by decide +kernel
            rw [e] at hx; simpa using hx
          rcases this with rfl | rfl
          · exact .text (c := .lit c!"red" none) (outs := [c!"red"]) (by decide) (by decide +kernel) (.lit (.inl rfl))
          · exact .text (c := .lit c!"blue" none) (outs := [c!"blue"]) (by decide) (by decide +kernel) (.lit (.inl rfl))))
        (by intro _; decide +kernel) (.cons (.lit (.inl rfl)) (by simp) .nil))))⟩

example : (samplePrompts genEnv 40 (Demo.ctx .cyc) (.inl c!"a __colors__ ball") 3 0).1 =
      [c!"a red ball", c!"a blue ball", c!"a red ball"] ∧
    (samplePrompts genEnv 40 (Demo.ctx .cyc) (.inl c!"a {red|blue} ball") 3 0).1 =
      [c!"a red ball", c!"a blue ball", c!"a red ball"] := by decide +kernel

end Verif.Props
