import Verif.Spec.Reordering
import Verif.Proofs.SameTexts
import Mathlib.Algebra.Order.Ring.Rat
import Mathlib.Algebra.Order.Field.Basic
import Mathlib.Data.List.Perm.Basic
import Mathlib.Data.List.Forall2
import Mathlib.Algebra.BigOperators.Group.List.Basic
/-! Templates whose options are written in another order. -/

namespace Verif
open Spec
variable {W : Type} {E : Env W} {ok : List Rat → Prop}

theorem ReorderedInside_length {l l' : List (Cmd × Rat)} (h : ReorderedInside ok l l') : l'.length = l.length := by
  match h with
  | .nil => rfl
  | .cons _ h => simp only [List.length_cons, ReorderedInside_length h]

theorem reordered_truthy {c c' : Cmd} (h : Reordered ok c c') : c'.truthy = c.truthy := by
  cases h with
  | seq h => simp only [Cmd.truthy]; cases h <;> rfl
  | @variant opts mid opts' lo hi sep m h hp h1 h2 h3 =>
    simp only [Cmd.truthy]
    have e := (ReorderedInside_length h).symm.trans hp.length_eq
    cases opts <;> cases opts' <;> first | rfl | cases e
  | _ => rfl

theorem reordered_method {c c' : Cmd} (h : Reordered ok c c') : c'.method = c.method := by cases h <;> rfl

theorem reordered_assign {n : Str} {v : Cmd} {i o : Bool} {c' : Cmd} (h : Reordered ok (.assign n v i o) c') :
    c' = .assign n v i o := by cases h; rfl

theorem reordered_wild {p : Prompt} {m : Option Method} {v : List (Str × Cmd)} {c' : Cmd} (h : Reordered ok (.wild p m v) c') :
    c' = .wild p m v := by cases h; rfl

theorem reordered_wild' {p : Prompt} {m : Option Method} {v : List (Str × Cmd)} {c : Cmd} (h : Reordered ok c (.wild p m v)) :
    c = .wild p m v := by cases h; rfl

theorem reordered_not_assigned {c c' : Cmd} (h : Reordered ok c c') (hc : ∀ n v i o, c ≠ .assign n v i o) (n : Str) (v : Cmd)
    (i o : Bool) : c' ≠ .assign n v i o := by
  rintro rfl
  cases h
  exact hc _ _ _ _ rfl

theorem reordered_singleWild {opts mid opts' : List (Cmd × Rat)} (h : ReorderedInside ok opts mid) (hp : mid.Perm opts') :
    SingleWild opts' → SingleWild opts := by
  rintro ⟨p, m, v, w, rfl⟩
  rw [List.perm_singleton.1 hp] at h
  cases h with
  | cons hc h => cases h; cases reordered_wild' hc; exact ⟨p, m, v, w, rfl⟩

/-! ### Combinatorially -/

theorem product_perm {α : Type} {l l' : List (List α)} (h : List.Forall₂ List.Perm l l') : (product l).Perm (product l') := by
  induction h with
  | nil => exact .refl _
  | cons h _ ih =>
    simp only [product]
    exact (List.Perm.flatMap_left _ fun _ _ => ih.map _).trans (h.flatMap_right _)

theorem eraseDups_nodup {α : Type} [BEq α] [LawfulBEq α] (l : List α) : l.eraseDups.Nodup := by
  match l with
  | [] => exact List.nodup_nil
  | a :: l =>
    rw [List.eraseDups_cons, List.nodup_cons]
    refine ⟨?_, eraseDups_nodup _⟩
    rw [List.mem_eraseDups, List.mem_filter]
    rintro ⟨-, h⟩
    simp at h
termination_by l.length
decreasing_by
  have := List.length_filter_le (fun x => !x == a) l
  simp only [List.length_cons]
  omega

/-- The options correspond to one another, and so do their texts. -/
structure Matched (os os' : List Cmd) (f f' : Cmd → List Str) : Prop where
  match_ : ∃ g h : Cmd → Cmd, (∀ c ∈ os', g c ∈ os ∧ h (g c) = c ∧ (f' c).Perm (f (g c))) ∧
    (∀ c ∈ os, h c ∈ os' ∧ g (h c) = c)

theorem Matched.perm {os mid os' : List Cmd} {f f' : Cmd → List Str} (h : Matched os mid f f') (hp : mid.Perm os') :
    Matched os os' f f' := by
  obtain ⟨g, h', h1, h2⟩ := h
  exact ⟨g, h', fun c hc => h1 c (hp.mem_iff.2 hc), fun c hc => ⟨hp.mem_iff.1 (h2 c hc).1, (h2 c hc).2⟩⟩

theorem variantTexts_perm {opts opts' : List (Cmd × Rat)} {lo hi : Int} {sep : Str} {f f' : Cmd → List Str}
    (hl : opts'.length = opts.length) (h : Matched (opts.map (·.1)) (opts'.map (·.1)) f f') :
    (variantTexts opts' lo hi sep f').Perm (variantTexts opts lo hi sep f) := by
  obtain ⟨g, h', h1, h2⟩ := h
  unfold variantTexts
  refine List.Perm.map _ ?_
  rw [List.perm_ext_iff_of_nodup (eraseDups_nodup _) (eraseDups_nodup _)]
  intro t
  simp only [variantSelections, List.mem_eraseDups, List.mem_filter, List.mem_flatMap,
    decide_eq_true_eq, mem_selections, Props.mem_product_iff, List.forall₂_map_right_iff, hl]
  refine and_congr_left fun hd => ⟨?_, ?_⟩
  · rintro ⟨cs, ⟨k, hk, hlen, hn, hc⟩, hf⟩
    refine ⟨cs.map g, ⟨k, hk, by rw [List.length_map]; exact hlen, ?_, ?_⟩, ?_⟩
    · refine List.Nodup.map_on (fun x hx y hy e => ?_) hn
      rw [← (h1 x (hc x hx)).2.1, ← (h1 y (hc y hy)).2.1, e]
    · intro x hx
      obtain ⟨y, hy, rfl⟩ := List.mem_map.1 hx
      exact (h1 y (hc y hy)).1
    · rw [List.forall₂_map_right_iff]
      clear hn hlen hd
      induction hf with
      | nil => exact .nil
      | cons ha _ ih =>
        exact .cons ((h1 _ (hc _ (List.mem_cons_self ..))).2.2.mem_iff.1 ha)
          (ih fun x hx => hc x (List.mem_cons_of_mem _ hx))
  · rintro ⟨cs, ⟨k, hk, hlen, hn, hc⟩, hf⟩
    refine ⟨cs.map h', ⟨k, hk, by rw [List.length_map]; exact hlen, ?_, ?_⟩, ?_⟩
    · refine List.Nodup.map_on (fun x hx y hy e => ?_) hn
      rw [← (h2 x (hc x hx)).2, ← (h2 y (hc y hy)).2, e]
    · intro x hx
      obtain ⟨y, hy, rfl⟩ := List.mem_map.1 hx
      exact (h2 y (hc y hy)).1
    · rw [List.forall₂_map_right_iff]
      clear hn hlen hd
      induction hf with
      | nil => exact .nil
      | cons ha _ ih =>
        refine .cons ?_ (ih fun x hx => hc x (List.mem_cons_of_mem _ hx))
        have := h2 _ (hc _ (List.mem_cons_self ..))
        rw [(h1 _ this.1).2.2.mem_iff, this.2]
        exact ha

mutual
theorem lists_reordered {vars : List (Str × Cmd)} {being : List Str} {c c' : Cmd} {outs : List Str} :
    Reordered ok c c' → Lists E vars being c outs → ∃ outs', Lists E vars being c' outs' ∧ outs'.Perm outs
  | .same, h => ⟨outs, h, .refl _⟩
  | .seq hr, h => by
      cases h with
      | seq h1 h2 h3 =>
        obtain ⟨toks', outss', h4, h5, h6⟩ := listsAll_reordered hr h2 h3
        exact ⟨_, .seq h1 h4 h5, (product_perm h6).map _⟩
  | .variant (opts := opts) (mid := mid) (opts' := opts') hr hp hn hn' _, h => by
      cases h with
      | empty h1 =>
        cases hr
        cases hp.symm.eq_nil
        exact ⟨_, .empty h1, .refl _⟩
      | variant f h1 h2 h3 h4 =>
        have hn2 : (mid.map (·.1)).Nodup := ((hp.map _).nodup_iff).2 hn'
        obtain ⟨f', h5, h6⟩ := listsInside_reordered hr hn hn2 h4
        refine ⟨_, .variant f' h1 (fun h => h2 (reordered_singleWild hr hp h)) ?_ (fun p hp' => h5 p (hp.mem_iff.2 hp')),
          variantTexts_perm (hp.length_eq.symm.trans (ReorderedInside_length hr)) (h6.perm (hp.map _))⟩
        rintro rfl
        cases hp.eq_nil
        cases hr
        exact h3 rfl
      | variantWild h1 h2 h3 h4 h5 =>
        cases hr with
        | cons hc hr =>
          cases hr
          cases reordered_wild hc
          cases List.singleton_perm.1 hp
          exact ⟨_, .variantWild h1 h2 h3 h4 h5, .refl _⟩
  | .wrap hw hi, h => by
      cases h with
      | wrap h1 h2 h3 =>
        have key : ∀ {d d' : Cmd} {os : List Str}, Reordered ok d d' → (∀ {os}, Lists E vars being d os →
            ∃ os', Lists E vars being d' os' ∧ os'.Perm os) → ListsPrompt E vars being (.inr d) os →
            ∃ os', ListsPrompt E vars being (.inr d') os' ∧ os'.Perm os := by
          intro d d' os hd ih h
          cases h with
          | empty h => exact ⟨_, .empty (by rw [reordered_truthy hd]; exact h), .refl _⟩
          | cmd h h' =>
            obtain ⟨os', h1, h2⟩ := ih h'
            exact ⟨_, .cmd (by rw [reordered_truthy hd]; exact h) h1, h2.map _⟩
        obtain ⟨xs, h4, h5⟩ := key hw (fun h => lists_reordered hw h) h2
        obtain ⟨ys, h6, h7⟩ := key hi (fun h => lists_reordered hi h) h3
        exact ⟨_, .wrap h1 h4 h6, (List.Perm.flatMap_left _ fun _ _ => h7.map _).trans (h5.flatMap_right _)⟩
theorem listsAll_reordered {vars V : List (Str × Cmd)} {being : List Str} {cs cs' toks : List Cmd} {new : List (Str × Cmd)}
    {outss : List (List Str)} : ReorderedAll ok cs cs' → ListsAssigned E vars being cs toks new →
      ListsTokens E V being toks outss → ∃ toks' outss', ListsAssigned E vars being cs' toks' new ∧
        ListsTokens E V being toks' outss' ∧ List.Forall₂ List.Perm outss' outss
  | .nil, h1, h2 => by
      cases h1; cases h2
      exact ⟨[], [], .nil, .nil, .nil⟩
  | .cons hc hcs, h1, h2 => by
      cases h1 with
      | tok h3 h4 =>
        cases h2 with
        | cons h5 h6 h7 =>
          obtain ⟨outs', h8, h9⟩ := lists_reordered hc h5
          obtain ⟨toks', outss', h10, h11, h12⟩ := listsAll_reordered hcs h4 h7
          refine ⟨_, _, .tok (reordered_not_assigned hc h3) h10, .cons h8 ?_ h11, .cons h9 h12⟩
          intro hm e
          subst e
          exact h6 (by rw [← reordered_method hc]; exact hm) h9.symm.eq_nil
      | keep h3 h4 =>
        obtain ⟨toks', outss', h10, h11, h12⟩ := listsAll_reordered hcs h4 h2
        cases reordered_assign hc
        exact ⟨_, _, .keep h3 h10, h11, h12⟩
      | plain h3 h4 =>
        obtain ⟨toks', outss', h10, h11, h12⟩ := listsAll_reordered hcs h4 h2
        cases reordered_assign hc
        exact ⟨_, _, .plain h3 h10, h11, h12⟩
      | literal h3 h4 =>
        obtain ⟨toks', outss', h10, h11, h12⟩ := listsAll_reordered hcs h4 h2
        cases reordered_assign hc
        exact ⟨_, _, .literal h3 h10, h11, h12⟩
      | immediate h3 h4 h5 h6 =>
        obtain ⟨toks', outss', h10, h11, h12⟩ := listsAll_reordered hcs h6 h2
        cases reordered_assign hc
        exact ⟨_, _, .immediate h3 h4 h5 h10, h11, h12⟩
theorem listsInside_reordered {vars : List (Str × Cmd)} {being : List Str} {opts mid : List (Cmd × Rat)}
    {f : Cmd → List Str} : ReorderedInside ok opts mid → (opts.map (·.1)).Nodup → (mid.map (·.1)).Nodup →
      (∀ p, p ∈ opts → Lists E vars being p.1 (f p.1)) →
      ∃ f', (∀ p, p ∈ mid → Lists E vars being p.1 (f' p.1)) ∧ Matched (opts.map (·.1)) (mid.map (·.1)) f f'
  | .nil, _, _, _ => ⟨f, by simp, id, id, by simp, by simp⟩
  | .cons (c := c) (c' := c') (cs := cs) (cs' := cs') hc hcs, hn, hn', h => by
      simp only [List.map_cons, List.nodup_cons] at hn hn'
      obtain ⟨f', h1, g, h', h2, h3⟩ := listsInside_reordered hcs hn.2 hn'.2 fun p hp => h p (List.mem_cons_of_mem _ hp)
      obtain ⟨outs', h4, h5⟩ := lists_reordered hc (h _ (List.mem_cons_self ..))
      have ne : ∀ p ∈ cs', p.1 ≠ c' := fun p hp e => hn'.1 (by rw [← e]; exact List.mem_map.2 ⟨p, hp, rfl⟩)
      refine ⟨Function.update f' c' outs', ?_, Function.update g c' c, Function.update h' c c', ?_, ?_⟩
      · intro p hp
        rcases List.mem_cons.1 hp with rfl | hp
        · simpa using h4
        · rw [Function.update_of_ne (ne p hp)]; exact h1 p hp
      · intro x hx
        rw [List.map_cons] at hx ⊢
        rcases List.mem_cons.1 hx with rfl | hx
        · simp only [Function.update_self, List.mem_cons_self, true_and]; exact h5
        · have hx' : x ≠ c' := fun e => hn'.1 (e ▸ hx)
          obtain ⟨h6, h7, h8⟩ := h2 x hx
          rw [Function.update_of_ne hx', Function.update_of_ne hx',
            Function.update_of_ne (a := g x) (a' := c) fun e => hn.1 (e ▸ h6)]
          exact ⟨List.mem_cons_of_mem _ h6, h7, h8⟩
      · intro x hx
        rw [List.map_cons] at hx ⊢
        rcases List.mem_cons.1 hx with rfl | hx
        · simp
        · have hx' : x ≠ c := fun e => hn.1 (e ▸ hx)
          obtain ⟨h6, h7⟩ := h3 x hx
          rw [Function.update_of_ne hx', Function.update_of_ne (a := h' x) (a' := c') fun e => hn'.1 (e ▸ h6)]
          exact ⟨List.mem_cons_of_mem _ h6, h7⟩
end

end Verif
