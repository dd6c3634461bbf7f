import Verif.Spec.Laws
import Verif.Proofs.ReorderingChances
import Verif.Props.Cyclical
import Verif.Proofs.Lists
/-! Other ways to write a template. -/

namespace Verif
open Spec
variable {W : Type} {E : Env W} {R : Cmd → Cmd → Prop}

theorem withinOptions_length {l l' : List (Cmd × Rat)} (h : WithinOptions R l l') : l'.length = l.length := by
  match h with
  | .nil => rfl
  | .cons _ h => simp only [List.length_cons, withinOptions_length h]

theorem withinOptions_weights {l l' : List (Cmd × Rat)} (h : WithinOptions R l l') : l'.map (·.2) = l.map (·.2) := by
  match h with
  | .nil => rfl
  | .cons _ h => simp only [List.map_cons, withinOptions_weights h]

/-- Assignments and wildcards stay as they are. -/
def Cmd.stays : Cmd → Prop
  | .assign .. => True
  | .wild .. => True
  | _ => False

/-- What is asked of a law for it to hold at any depth. -/
structure Keeps (E : Env W) (R : Cmd → Cmd → Prop) : Prop where
  truthy : ∀ {c c'}, R c c' → c'.truthy = c.truthy
  method : ∀ {c c'}, R c c' → c'.method = c.method
  stays : ∀ {c c'}, R c c' → ¬ c.stays ∧ ¬ c'.stays
  lists : [Inhabited W] → ∀ {c c'}, R c c' → ∀ {vars being outs}, Lists E vars being c outs → Lists E vars being c' outs
  chance : ∀ {c c'}, R c c' → ∀ {vars being P}, Chance E vars being c P → ∃ P', Chance E vars being c' P' ∧ Alike P P'

theorem within_truthy (hR : Keeps E R) {c c' : Cmd} (h : Within R c c') : c'.truthy = c.truthy := by
  match h with
  | .same => rfl
  | .trans h1 h2 => rw [within_truthy hR h2, within_truthy hR h1]
  | .law h => exact hR.truthy h
  | .variant (opts := l) (opts' := l') h _ _ =>
    simp only [Cmd.truthy]
    have e := withinOptions_length h
    cases l <;> cases l' <;> first | rfl | cases e
  | .one (opts := l) (opts' := l') h =>
    simp only [Cmd.truthy]
    have e := withinOptions_length h
    cases l <;> cases l' <;> first | rfl | cases e
  | .seq h => simp only [Cmd.truthy]; cases h <;> rfl
  | .wrap .. => rfl

theorem within_method (hR : Keeps E R) {c c' : Cmd} (h : Within R c c') : c'.method = c.method := by
  match h with
  | .same => rfl
  | .trans h1 h2 => rw [within_method hR h2, within_method hR h1]
  | .law h => exact hR.method h
  | .variant .. => rfl
  | .one _ => rfl
  | .seq _ => rfl
  | .wrap .. => rfl

theorem within_stays (hR : Keeps E R) {c c' : Cmd} (h : Within R c c') : c.stays ∨ c'.stays → c' = c := by
  match h with
  | .same => exact fun _ => rfl
  | .trans h1 h2 =>
    rintro (hs | hs)
    · have e := within_stays hR h1 (.inl hs)
      rw [within_stays hR h2 (.inl (e ▸ hs)), e]
    · have e := within_stays hR h2 (.inr hs)
      rw [e]
      exact within_stays hR h1 (.inr (e ▸ hs))
  | .law h =>
    rintro (hs | hs)
    · exact absurd hs (hR.stays h).1
    · exact absurd hs (hR.stays h).2
  | .variant .. => rintro (h | h) <;> exact h.elim
  | .one _ => rintro (h | h) <;> exact h.elim
  | .seq _ => rintro (h | h) <;> exact h.elim
  | .wrap .. => rintro (h | h) <;> exact h.elim

theorem within_not_assigned (hR : Keeps E R) {c c' : Cmd} (h : Within R c c') (hc : ∀ n v i o, c ≠ .assign n v i o) (n : Str) (v : Cmd)
    (i o : Bool) : c' ≠ .assign n v i o := by
  intro e
  have := within_stays hR h (.inr (e ▸ trivial))
  exact hc n v i o (this.symm.trans e)

theorem within_singleWild (hR : Keeps E R) {opts opts' : List (Cmd × Rat)} (h : WithinOptions R opts opts') :
    SingleWild opts' → SingleWild opts := by
  rintro ⟨p, m, v, w, rfl⟩
  cases h with
  | cons hc h =>
    cases h
    cases within_stays hR hc (.inr trivial)
    exact ⟨p, m, v, w, rfl⟩

/-! ### Combinatorially -/

theorem lists_one [Inhabited W] {vars : List (Str × Cmd)} {being : List Str} {c : Cmd} {outs outs' : List Str}
    (h : Lists E vars being c outs) (h' : Lists E vars being c outs') : outs = outs' := by
  obtain ⟨g, h1, h2⟩ := lists_Yx h
  obtain ⟨g', h3, h4⟩ := lists_Yx h'
  rw [h1] at h3
  cases h3
  obtain ⟨o, h5, N, h6⟩ := PY.collect h2 default
  obtain ⟨o', h7, N', h8⟩ := PY.collect h4 default
  cases forall2_exact h5
  cases forall2_exact h7
  have e1 := (h6 (max N N') (by omega)).1 (max outs.length outs'.length)
  have e2 := (h8 (max N N') (by omega)).1 (max outs.length outs'.length)
  rw [e1, List.take_of_length_le (by omega), List.take_of_length_le (by omega)] at e2
  exact e2

open Classical in
/-- The texts of a command. -/
noncomputable def texts (E : Env W) (vars : List (Str × Cmd)) (being : List Str) (c : Cmd) : List Str :=
  if h : ∃ outs, Lists E vars being c outs then h.choose else []

theorem texts_eq [Inhabited W] {vars : List (Str × Cmd)} {being : List Str} {c : Cmd} {outs : List Str}
    (h : Lists E vars being c outs) : texts E vars being c = outs := by
  unfold texts
  rw [dif_pos ⟨outs, h⟩]
  exact lists_one (Exists.choose_spec ⟨outs, h⟩) h

theorem texts_lists [Inhabited W] {vars : List (Str × Cmd)} {being : List Str} {c : Cmd} {outs : List Str}
    (h : Lists E vars being c outs) : Lists E vars being c (texts E vars being c) := by rw [texts_eq h]; exact h

/-- The texts of the options of a choice that is not a wildcard. -/
theorem lists_choice [Inhabited W] {vars : List (Str × Cmd)} {being : List Str} {opts : List (Cmd × Rat)} {sep : Str}
    {m : Option Method} {outs : List Str} {lo hi : Int} (h2 : 2 ≤ opts.length) :
    Lists E vars being (.variant opts lo hi sep m) outs ↔ Finite m ∧
      (∀ p ∈ opts, Lists E vars being p.1 (texts E vars being p.1)) ∧
      outs = variantTexts opts lo hi sep (texts E vars being) := by
  constructor
  · intro h
    cases h with
    | empty => simp at h2
    | variant f h1 h3 h4 h5 =>
      refine ⟨h1, fun p hp => texts_lists (h5 p hp), ?_⟩
      unfold variantTexts
      congr 3
      refine List.flatMap_congr fun sel hsel => ?_
      congr 1
      refine List.map_congr_left fun c hc => ?_
      simp only [variantSelections, List.mem_flatMap, mem_selections] at hsel
      obtain ⟨k, -, -, -, h⟩ := hsel
      obtain ⟨p, hp, rfl⟩ := List.mem_map.1 (h c hc)
      exact (texts_eq (h5 p hp)).symm
    | variantWild => simp at h2
  · rintro ⟨h1, h3, rfl⟩
    refine .variant _ h1 ?_ (by rintro rfl; simp at h2) h3
    rintro ⟨p, m, v, w, rfl⟩
    simp at h2

theorem product_replicate_map {α β : Type} (g : α → β) (k : Nat) (l : List α) :
    product (List.replicate k (l.map g)) = (product (List.replicate k l)).map (List.map g) := by
  induction k with
  | zero => rfl
  | succ k ih =>
    simp only [List.replicate_succ, product, ih, List.flatMap_map, List.map_flatMap, List.map_map]
    congr 1

theorem selections_map_on {α β : Type} [DecidableEq α] [DecidableEq β] (g : α → β) (k : Nat) (l : List α)
    (hg : ∀ x ∈ l, ∀ y ∈ l, g x = g y → x = y) :
    selections k (l.map g) = (selections k l).map (List.map g) := by
  unfold selections
  rw [product_replicate_map, List.filter_map]
  congr 1
  refine List.filter_congr fun t ht => ?_
  have hm : ∀ x ∈ t, x ∈ l := by
    rw [Props.mem_product_iff] at ht
    clear hg
    induction k generalizing t with
    | zero => cases ht; simp
    | succ k ih =>
      rw [List.replicate_succ] at ht
      cases ht with
      | cons h1 h2 =>
        intro x hx
        rcases List.mem_cons.1 hx with rfl | hx
        · exact h1
        · exact ih _ h2 x hx
  simp only [Function.comp_apply, decide_eq_decide]
  exact ⟨fun h => List.Nodup.of_map _ h, fun h => h.map_on fun x hx y hy e => hg x (hm x hx) y (hm y hy) e⟩

theorem variantTexts_congr {opts opts' : List (Cmd × Rat)} {lo hi : Int} {sep : Str} {f f' : Cmd → List Str} (g : Cmd → Cmd)
    (hm : opts'.map (·.1) = (opts.map (·.1)).map g) (hn : ((opts.map (·.1)).map g).Nodup)
    (hf : ∀ c ∈ opts.map (·.1), f' (g c) = f c) :
    variantTexts opts' lo hi sep f' = variantTexts opts lo hi sep f := by
  have hl : opts'.length = opts.length := by simpa using congrArg List.length hm
  have hs : variantSelections opts' lo hi = (variantSelections opts lo hi).map (List.map g) := by
    unfold variantSelections
    rw [hl, hm, List.map_flatMap]
    congr 1
    funext k
    exact selections_map_on g k _ fun x hx y hy e => List.inj_on_of_nodup_map hn hx hy e
  unfold variantTexts
  rw [hs, List.flatMap_map]
  congr 3
  refine List.flatMap_congr fun sel hsel => ?_
  rw [List.map_map]
  congr 1
  refine List.map_congr_left fun c hc => hf c ?_
  simp only [variantSelections, List.mem_flatMap, mem_selections] at hsel
  obtain ⟨k, -, -, -, h⟩ := hsel
  exact h c hc

theorem eraseDups_again {α : Type} [BEq α] [LawfulBEq α] (a b c : List α) :
    (a ++ (b ++ (b ++ c))).eraseDups = (a ++ (b ++ c)).eraseDups := by
  rw [List.eraseDups_append, List.eraseDups_append (as := a)]
  congr 1
  simp only [List.removeAll, List.filter_append]
  generalize List.filter _ b = b, List.filter _ c = c
  rw [List.eraseDups_append, List.eraseDups_append (as := b)]
  congr 2
  simp only [List.removeAll, List.filter_append]
  rw [List.filter_eq_nil_iff.2, List.nil_append]
  intro x hx
  simpa using hx

theorem eraseDups_copies {α : Type} [BEq α] [LawfulBEq α] (a b c : List α) (k : Nat) :
    (a ++ ((List.replicate (k + 1) b).flatten ++ c)).eraseDups = (a ++ (b ++ c)).eraseDups := by
  induction k with
  | zero => simp
  | succ k ih =>
    rw [List.replicate_succ, List.flatten_cons, List.replicate_succ, List.flatten_cons]
    rw [List.replicate_succ, List.flatten_cons] at ih
    rw [← ih, List.append_assoc, List.append_assoc, eraseDups_again]

theorem variantTexts_one {opts : List (Cmd × Rat)} {sep : Str} {f : Cmd → List Str} (h : opts ≠ []) :
    variantTexts opts 1 1 sep f = (((opts.flatMap fun p => (f p.1).map fun s => [s])).eraseDups).map (joined sep) := by
  unfold variantTexts
  rw [Props.variantSelections_one opts h, List.flatMap_map]
  simp only [List.map_cons, List.map_nil, product]
  congr 2
  rw [List.filter_eq_self.2]
  · congr 1; funext p; simp [List.map_eq_flatMap]
  · intro t ht
    simp only [List.mem_flatMap, List.mem_singleton] at ht
    obtain ⟨p, -, s, -, rfl⟩ := ht
    simp

theorem variantTexts_copies {before after : List (Cmd × Rat)} {c : Cmd} {x : Rat} {ws : List Rat} {sep : Str}
    {f : Cmd → List Str} (h : ws ≠ []) : variantTexts (before ++ ws.map (fun w => (c, w)) ++ after) 1 1 sep f =
      variantTexts (before ++ (c, x) :: after) 1 1 sep f := by
  rw [variantTexts_one (by simp [h]), variantTexts_one (by simp)]
  congr 1
  obtain ⟨w, ws, rfl⟩ := List.exists_cons_of_ne_nil h
  have e : ((w :: ws).map (fun w => (c, w))).flatMap (fun p : Cmd × Rat => (f p.1).map fun s => [s]) =
      (List.replicate (ws.length + 1) ((f c).map fun s => [s])).flatten := by
    rw [List.flatMap_map, List.flatMap_def]
    congr 1
    simp [List.map_const', List.replicate_succ]
  rw [List.append_assoc, List.flatMap_append, List.flatMap_append, e, eraseDups_copies, List.flatMap_append, List.flatMap_cons]

mutual
theorem lists_within [Inhabited W] (hR : Keeps E R) {vars : List (Str × Cmd)} {being : List Str} {c c' : Cmd} {outs : List Str} :
    Within R c c' → Lists E vars being c outs → Lists E vars being c' outs
  | .same, h => h
  | .trans h1 h2, h => lists_within hR h2 (lists_within hR h1 h)
  | .law hl, h => hR.lists hl h
  | .variant (opts := opts) (opts' := opts') hr hn hn', h => by
      cases h with
      | empty h1 => cases hr; exact .empty h1
      | variant f h1 h2 h3 h4 =>
        obtain ⟨f', g, h5, h6, h7⟩ := listsInside_within hR hr hn hn' h4
        rw [← variantTexts_congr g h6 (h6 ▸ hn') h7]
        refine .variant f' h1 (fun h => h2 (within_singleWild hR hr h)) ?_ h5
        rintro rfl
        cases hr
        exact h3 rfl
      | variantWild h1 h2 h3 h4 h5 =>
        cases hr with
        | cons hc hr =>
          cases hr
          cases within_stays hR hc (.inl trivial)
          exact .variantWild h1 h2 h3 h4 h5
  | .one (opts := opts) (opts' := opts') hr, h => by
      have ih := fun (f : Cmd → List Str) (h : ∀ p, p ∈ opts → Lists E vars being p.1 (f p.1)) => listsOne_within hR hr h
      have hs := within_singleWild hR hr
      cases h with
      | empty h1 => cases hr; exact .empty h1
      | variant f h1 h2 h3 h4 =>
        obtain ⟨h5, h6⟩ := ih f h4
        have h7 : opts' ≠ [] := by
          rintro rfl
          cases hr
          exact h3 rfl
        rw [variantTexts_one h3, ← h6, ← variantTexts_one h7]
        exact .variant _ h1 (fun h => h2 (hs h)) h7 h5
      | variantWild h1 h2 h3 h4 h5 =>
        cases hr with
        | cons hc hr =>
          cases hr
          cases within_stays hR hc (.inl trivial)
          exact .variantWild h1 h2 h3 h4 h5
  | .seq hr, h => by
      cases h with
      | seq h1 h2 h3 =>
        obtain ⟨toks', h4, h5⟩ := listsAll_within hR hr h2 h3
        exact .seq h1 h4 h5
  | .wrap hw hi, h => by
      cases h with
      | wrap h1 h2 h3 =>
        have key : ∀ {d d' : Cmd} {os : List Str}, Within R d d' → (∀ {os}, Lists E vars being d os → Lists E vars being d' os) →
            ListsPrompt E vars being (.inr d) os → ListsPrompt E vars being (.inr d') os := by
          intro d d' os hd ih h
          cases h with
          | empty h => exact .empty (by rw [within_truthy hR hd]; exact h)
          | cmd h h' => exact .cmd (by rw [within_truthy hR hd]; exact h) (ih h')
        exact .wrap h1 (key hw (fun h => lists_within hR hw h) h2) (key hi (fun h => lists_within hR hi h) h3)
theorem listsAll_within [Inhabited W] (hR : Keeps E R) {vars V : List (Str × Cmd)} {being : List Str} {cs cs' toks : List Cmd} {new : List (Str × Cmd)}
    {outss : List (List Str)} : WithinAll R cs cs' → ListsAssigned E vars being cs toks new →
      ListsTokens E V being toks outss → ∃ toks', ListsAssigned E vars being cs' toks' new ∧ ListsTokens E V being toks' outss
  | .nil, h1, h2 => by
      cases h1
      exact ⟨[], .nil, h2⟩
  | .cons hc hcs, h1, h2 => by
      cases h1 with
      | tok h3 h4 =>
        cases h2 with
        | cons h5 h6 h7 =>
          obtain ⟨toks', h10, h11⟩ := listsAll_within hR hcs h4 h7
          exact ⟨_, .tok (within_not_assigned hR hc h3) h10,
            .cons (lists_within hR hc h5) (fun hm => h6 (by rw [← within_method hR hc]; exact hm)) h11⟩
      | keep h3 h4 =>
        obtain ⟨toks', h10, h11⟩ := listsAll_within hR hcs h4 h2
        cases within_stays hR hc (.inl trivial)
        exact ⟨_, .keep h3 h10, h11⟩
      | plain h3 h4 =>
        obtain ⟨toks', h10, h11⟩ := listsAll_within hR hcs h4 h2
        cases within_stays hR hc (.inl trivial)
        exact ⟨_, .plain h3 h10, h11⟩
      | literal h3 h4 =>
        obtain ⟨toks', h10, h11⟩ := listsAll_within hR hcs h4 h2
        cases within_stays hR hc (.inl trivial)
        exact ⟨_, .literal h3 h10, h11⟩
      | immediate h3 h4 h5 h6 =>
        obtain ⟨toks', h10, h11⟩ := listsAll_within hR hcs h6 h2
        cases within_stays hR hc (.inl trivial)
        exact ⟨_, .immediate h3 h4 h5 h10, h11⟩
theorem listsOne_within [Inhabited W] (hR : Keeps E R) {vars : List (Str × Cmd)} {being : List Str}
    {opts opts' : List (Cmd × Rat)} {f : Cmd → List Str} : WithinOptions R opts opts' →
      (∀ p, p ∈ opts → Lists E vars being p.1 (f p.1)) →
      (∀ p, p ∈ opts' → Lists E vars being p.1 (texts E vars being p.1)) ∧
        (opts'.flatMap fun p => (texts E vars being p.1).map fun s => [s]) = opts.flatMap fun p => (f p.1).map fun s => [s]
  | .nil, _ => ⟨by simp, rfl⟩
  | .cons (c := c) (c' := c') (cs := cs) (cs' := cs') hc hcs, h => by
      obtain ⟨h1, h2⟩ := listsOne_within hR hcs fun p hp => h p (List.mem_cons_of_mem _ hp)
      have h4 := lists_within hR hc (h _ (List.mem_cons_self ..))
      refine ⟨fun p hp => ?_, ?_⟩
      · rcases List.mem_cons.1 hp with rfl | hp
        · exact texts_lists h4
        · exact h1 p hp
      · rw [List.flatMap_cons, List.flatMap_cons, h2, texts_eq h4]
theorem listsInside_within [Inhabited W] (hR : Keeps E R) {vars : List (Str × Cmd)} {being : List Str} {opts opts' : List (Cmd × Rat)}
    {f : Cmd → List Str} : WithinOptions R opts opts' → (opts.map (·.1)).Nodup → (opts'.map (·.1)).Nodup →
      (∀ p, p ∈ opts → Lists E vars being p.1 (f p.1)) →
      ∃ (f' : Cmd → List Str) (g : Cmd → Cmd), (∀ p, p ∈ opts' → Lists E vars being p.1 (f' p.1)) ∧
        opts'.map (·.1) = (opts.map (·.1)).map g ∧ ∀ c ∈ opts.map (·.1), f' (g c) = f c
  | .nil, _, _, _ => ⟨f, id, by simp, by simp, by simp⟩
  | .cons (c := c) (c' := c') (cs := cs) (cs' := cs') hc hcs, hn, hn', h => by
      simp only [List.map_cons, List.nodup_cons] at hn hn'
      obtain ⟨f', g, h1, h2, h3⟩ := listsInside_within hR hcs hn.2 hn'.2 fun p hp => h p (List.mem_cons_of_mem _ hp)
      have h4 := lists_within hR hc (h _ (List.mem_cons_self ..))
      refine ⟨Function.update f' c' (f c), Function.update g c c', ?_, ?_, ?_⟩
      · intro p hp
        rcases List.mem_cons.1 hp with rfl | hp
        · simpa using h4
        · rw [Function.update_of_ne fun e => hn'.1 (by rw [← e]; exact List.mem_map.2 ⟨p, hp, rfl⟩)]; exact h1 p hp
      · rw [List.map_cons, List.map_cons, List.map_cons, Function.update_self, h2]
        congr 1
        refine List.map_congr_left fun x hx => ?_
        have : x ≠ c := fun e => hn.1 (e ▸ hx)
        rw [Function.update_of_ne this]
      · intro x hx
        rw [List.map_cons] at hx
        rcases List.mem_cons.1 hx with rfl | hx
        · simp
        · rw [Function.update_of_ne (a' := c) fun e => hn.1 (e ▸ hx), Function.update_of_ne (a' := c')]
          · exact h3 x hx
          · intro e
            exact hn'.1 (by rw [h2, ← e]; exact List.mem_map.2 ⟨x, hx, rfl⟩)
end

/-! ### At random -/

theorem Alike.trans {α : Type} {d d' d'' : Distr α} (h : Alike d d') (h' : Alike d' d'') : Alike d d'' :=
  fun f => (h f).trans (h' f)

theorem picked_one {α : Type} (l : List (Distr α × Rat)) (F : List α → Rat) :
    picked 1 l F = (l.map fun x => x.2 / total l * mean x.1 fun a => F [a]).sum := by
  rw [picked_succ]
  simp only [picked_zero]
  have : ∀ (l : List (Distr α × Rat)), (splits l).map (·.1) = l := by
    intro l
    induction l with
    | nil => rfl
    | cons a l ih => simp only [splits, List.map_cons, List.map_map, Function.comp_def]; rw [ih]
  conv_rhs => rw [← this l, List.map_map]
  rw [this]
  rfl

theorem counts_once (n : Nat) (h : 1 ≤ n) : counts n 1 1 = [(1, 1)] := by
  unfold counts
  have h1 : (max 0 (min (min (1 : Int) 1) n)).toNat = 1 := by omega
  have h2 : (max 0 (min (max (1 : Int) 1) n)).toNat = 1 := by omega
  rw [h1, h2]
  simp

theorem variantDist_copies {l r : List (Distr Str × Rat)} {D : Distr Str} {x : Rat} {ws : List Rat} (hw : ws ≠ [])
    (hx : ws.sum = x) (sep : Str) : Alike (variantDist (l ++ (D, x) :: r) 1 1 sep)
      (variantDist (l ++ ws.map (fun w => (D, w)) ++ r) 1 1 sep) := by
  obtain ⟨w, ws, rfl⟩ := List.exists_cons_of_ne_nil hw
  have ht : total (l ++ (w :: ws).map (fun w => (D, w)) ++ r) = total (l ++ (D, x) :: r) := by
    have e : ((w :: ws).map fun w => (D, w)).map (·.2) = w :: ws := by simp [Function.comp_def]
    unfold total
    rw [List.map_append, List.map_append, e, List.sum_append, List.sum_append, hx, List.map_append, List.map_cons,
      List.sum_append, List.sum_cons]
    ring
  unfold variantDist
  rw [counts_once _ (by simp; omega), counts_once _ (by simp; omega)]
  refine (Alike.refl _).bind fun y hy => Alike.map _ fun F => ?_
  cases List.mem_singleton.1 hy
  show picked 1 _ F = picked 1 _ F
  rw [picked_one, picked_one, ht]
  generalize total (l ++ (D, x) :: r) = T
  have e : ∀ (ws : List Rat) (m : Rat), ((ws.map fun w => (D, w)).map fun x : Distr Str × Rat =>
      x.2 / T * mean x.1 fun a => F [a]).sum = ws.sum / T * mean D fun a => F [a] := by
    intro ws m
    induction ws with
    | nil => simp
    | cons a ws ih => simp only [List.map_cons, List.sum_cons, ih]; ring
  rw [List.map_append, List.map_cons, List.sum_append, List.sum_cons, List.map_append, List.map_append, List.sum_append,
    List.sum_append, e _ 0, hx]
  ring

theorem chanceAll_append {vars : List (Str × Cmd)} {being : List Str} {l r : List Cmd} {Ds : List (Distr Str)} :
    ChanceAll E vars being (l ++ r) Ds ↔ ∃ A B, Ds = A ++ B ∧ ChanceAll E vars being l A ∧ ChanceAll E vars being r B := by
  induction l generalizing Ds with
  | nil =>
    refine ⟨fun h => ⟨[], Ds, rfl, .nil, h⟩, ?_⟩
    rintro ⟨A, B, rfl, h1, h2⟩
    cases h1; exact h2
  | cons c l ih =>
    constructor
    · intro h
      cases h with
      | cons h1 h2 =>
        obtain ⟨A, B, rfl, h3, h4⟩ := ih.1 h2
        exact ⟨_ :: A, B, rfl, .cons h1 h3, h4⟩
    · rintro ⟨A, B, rfl, h1, h2⟩
      cases h1 with
      | cons h1 h3 => exact .cons h1 (ih.2 ⟨_, _, rfl, h3, h2⟩)

theorem chanceAll_length {vars : List (Str × Cmd)} {being : List Str} {l : List Cmd} {Ds : List (Distr Str)}
    (h : ChanceAll E vars being l Ds) : Ds.length = l.length := by
  induction l generalizing Ds with
  | nil => cases h; rfl
  | cons c l ih => cases h with | cons _ h => simp [ih h]

mutual
theorem chance_within (hR : Keeps E R) {vars : List (Str × Cmd)} {being : List Str} {c c' : Cmd} {P : Distr Str} :
    Within R c c' → Chance E vars being c P → ∃ P', Chance E vars being c' P' ∧ Alike P P'
  | .same, h => ⟨P, h, .refl _⟩
  | .trans h1 h2, h => by
      obtain ⟨P', h3, h4⟩ := chance_within hR h1 h
      obtain ⟨P'', h5, h6⟩ := chance_within hR h2 h3
      exact ⟨P'', h5, h4.trans h6⟩
  | .law hl, h => hR.chance hl h
  | .variant (opts := opts) (opts' := opts') (lo := lo) (hi := hi) (sep := sep) hr hn hn', h => by
      have hlen : opts'.length = opts.length := withinOptions_length hr
      have hw := withinOptions_weights hr
      have ih := fun Ds (h : ChanceAll E vars being (opts.map (·.1)) Ds) => chanceInside_within hR hr h
      cases h with
      | cmd hm h =>
        cases h with
        | @variant _ _ _ _ _ _ m Ds h1 h2 h3 h4 h5 h6 =>
          obtain ⟨Ds1, h7, h8⟩ := ih _ h6
          have hmem : ∀ p' ∈ opts', ∃ p ∈ opts, p.2 = p'.2 := by
            intro p' hp'
            have : p'.2 ∈ opts'.map (·.2) := List.mem_map.2 ⟨p', hp', rfl⟩
            rw [hw] at this
            exact List.mem_map.1 this
          refine ⟨_, .cmd hm (.variant (Ds := Ds1) (by omega) h2 ?_ ?_ ?_ h7), ?_⟩
          · intro p' hp'
            obtain ⟨p, hp1, hp2⟩ := hmem p' hp'
            rw [← hp2]; exact h3 p hp1
          · have : total opts' = total opts := by
              unfold total
              rw [← hw]
            rw [this]; exact h4
          · intro hk
            refine ⟨fun p' hp' => ?_, hn', hw ▸ (h5 hk).2.2⟩
            obtain ⟨p, hp1, hp2⟩ := hmem p' hp'
            rw [← hp2]; exact (h5 hk).1 p hp1
          · rw [hw]
            exact variantDist_alike (zip_alike h8 _) (.refl _) lo hi sep
        | variantSingle h1 h2 =>
          obtain ⟨Ds', h3, h4⟩ := ih _ (.cons h2 .nil)
          have h5 := within_singleWild hR hr
          cases hr with
          | cons hc hr =>
            cases hr
            cases h4 with
            | cons h4 h6 =>
              cases h6
              cases h3 with
              | cons h3 _ => exact ⟨_, .cmd hm (.variantSingle (fun hs => h1 (h5 hs)) h3), h4⟩
        | variantWild h1 h2 h3 h4 =>
          cases hr with
          | cons hc hr =>
            cases hr
            cases within_stays hR hc (.inl trivial)
            exact ⟨_, .cmd hm (.variantWild h1 h2 h3 h4), .refl _⟩
  | .one (opts := opts) (opts' := opts') (sep := sep) hr, h => by
      have hlen : opts'.length = opts.length := withinOptions_length hr
      have hw := withinOptions_weights hr
      have ih := fun Ds (h : ChanceAll E vars being (opts.map (·.1)) Ds) => chanceInside_within hR hr h
      cases h with
      | cmd hm h =>
        cases h with
        | @variant _ _ _ _ _ _ m Ds h1 h2 h3 h4 h5 h6 =>
          obtain ⟨Ds1, h7, h8⟩ := ih _ h6
          have hmem : ∀ p' ∈ opts', ∃ p ∈ opts, p.2 = p'.2 := by
            intro p' hp'
            have : p'.2 ∈ opts'.map (·.2) := List.mem_map.2 ⟨p', hp', rfl⟩
            rw [hw] at this
            exact List.mem_map.1 this
          refine ⟨_, .cmd hm (.variant (Ds := Ds1) (by omega) h2 ?_ ?_ ?_ h7), ?_⟩
          · intro p' hp'
            obtain ⟨p, hp1, hp2⟩ := hmem p' hp'
            rw [← hp2]; exact h3 p hp1
          · have : total opts' = total opts := by
              unfold total
              rw [← hw]
            rw [this]; exact h4
          · intro hk; exact absurd hk (by decide)
          · rw [hw]
            exact variantDist_alike (zip_alike h8 _) (.refl _) 1 1 sep
        | variantSingle h1 h2 =>
          obtain ⟨Ds', h3, h4⟩ := ih _ (.cons h2 .nil)
          have h5 := within_singleWild hR hr
          cases hr with
          | cons hc hr =>
            cases hr
            cases h4 with
            | cons h4 h6 =>
              cases h6
              cases h3 with
              | cons h3 _ => exact ⟨_, .cmd hm (.variantSingle (fun hs => h1 (h5 hs)) h3), h4⟩
        | variantWild h1 h2 h3 h4 =>
          cases hr with
          | cons hc hr =>
            cases hr
            cases within_stays hR hc (.inl trivial)
            exact ⟨_, .cmd hm (.variantWild h1 h2 h3 h4), .refl _⟩
  | .seq hr, h => by
      cases h with
      | cmd hm h =>
        cases h with
        | @seq _ _ _ sep _ toks N Ds h1 h2 =>
          obtain ⟨toks', h3, h4⟩ := chanceAssign_within hR hr h1
          have h5 : ∀ new, ∃ D', (∀ q, (new, q) ∈ N → ChanceAll E (new ++ vars) being toks' D' ∧ List.Forall₂ Alike (Ds new) D') := by
            intro new
            by_cases hN : ∃ q, (new, q) ∈ N
            · obtain ⟨q, hq⟩ := hN
              obtain ⟨D', h6, h7⟩ := h4 (h2 _ hq)
              exact ⟨D', fun _ _ => ⟨h6, h7⟩⟩
            · exact ⟨[], fun q hq => absurd ⟨q, hq⟩ hN⟩
          choose Ds' hDs using h5
          refine ⟨_, .cmd hm (.seq h3 (Ds := Ds') fun x hx => (hDs x.1 x.2 hx).1), ?_⟩
          exact (Alike.refl N).bind fun x hx => (Alike.all (hDs x.1 x.2 hx).2).map _
  | .wrap hw hi, h => by
      cases h with
      | cmd hm h =>
        cases h with
        | wrap h1 h2 =>
          obtain ⟨P', h3, h4⟩ := chance_within hR hw h1
          obtain ⟨Q', h5, h6⟩ := chance_within hR hi h2
          exact ⟨_, .cmd hm (.wrap h3 h5), h4.bind fun _ _ => h6.map _⟩
theorem chanceAssign_within (hR : Keeps E R) {vars : List (Str × Cmd)} {being : List Str} {cs cs' toks : List Cmd}
    {N : Distr (List (Str × Cmd))} : WithinAll R cs cs' → ChanceAssign E vars being cs toks N →
      ∃ toks', ChanceAssign E vars being cs' toks' N ∧ ∀ {V Ps}, ChanceAll E V being toks Ps →
        ∃ Ps', ChanceAll E V being toks' Ps' ∧ List.Forall₂ Alike Ps Ps'
  | .nil, h => by
      cases h
      exact ⟨[], .nil, fun h => by cases h; exact ⟨[], .nil, .nil⟩⟩
  | .cons hc hcs, h => by
      cases h with
      | tok h1 h2 =>
        obtain ⟨toks', h3, h4⟩ := chanceAssign_within hR hcs h2
        refine ⟨_, .tok (within_not_assigned hR hc h1) h3, fun h => ?_⟩
        cases h with
        | cons h5 h6 =>
          obtain ⟨P', h7, h8⟩ := chance_within hR hc h5
          obtain ⟨Ps', h9, h10⟩ := h4 h6
          exact ⟨_, .cons h7 h9, .cons h8 h10⟩
      | keep h1 h2 =>
        obtain ⟨toks', h3, h4⟩ := chanceAssign_within hR hcs h2
        cases within_stays hR hc (.inl trivial)
        exact ⟨_, .keep h1 h3, h4⟩
      | plain h1 h2 =>
        obtain ⟨toks', h3, h4⟩ := chanceAssign_within hR hcs h2
        cases within_stays hR hc (.inl trivial)
        exact ⟨_, .plain h1 h3, h4⟩
      | literal h1 h2 =>
        obtain ⟨toks', h3, h4⟩ := chanceAssign_within hR hcs h2
        cases within_stays hR hc (.inl trivial)
        exact ⟨_, .literal h1 h3, h4⟩
      | immediate h1 hl hP h2 =>
        obtain ⟨toks', h3, h4⟩ := chanceAssign_within hR hcs h2
        cases within_stays hR hc (.inl trivial)
        exact ⟨_, .immediate h1 hl hP h3, h4⟩
theorem chanceInside_within (hR : Keeps E R) {vars : List (Str × Cmd)} {being : List Str} {opts mid : List (Cmd × Rat)}
    {Ds : List (Distr Str)} : WithinOptions R opts mid → ChanceAll E vars being (opts.map (·.1)) Ds →
      ∃ Ds', ChanceAll E vars being (mid.map (·.1)) Ds' ∧ List.Forall₂ Alike Ds Ds'
  | .nil, h => by
      cases h
      exact ⟨[], .nil, .nil⟩
  | .cons hc hcs, h => by
      cases h with
      | cons h1 h2 =>
        obtain ⟨P', h3, h4⟩ := chance_within hR hc h1
        obtain ⟨Ds', h5, h6⟩ := chanceInside_within hR hcs h2
        exact ⟨_, .cons h3 h5, .cons h4 h6⟩
end

end Verif
