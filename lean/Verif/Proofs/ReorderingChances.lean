import Verif.Proofs.Reordering
import Mathlib.Algebra.BigOperators.Group.List.Lemmas
import Mathlib.Algebra.BigOperators.Ring.List
import Mathlib.Tactic.Ring
/-! The chances of prompts do not depend on the order of options. -/

namespace Verif
open Spec
variable {W : Type} {E : Env W} {α β : Type}

/-! ### Expectations -/

/-- The mean of `f`. -/
def mean (d : Distr α) (f : α → Rat) : Rat := (List.map (fun x => x.2 * f x.1) d).sum

/-- Two distributions under which everything has the same mean. -/
def Alike (d d' : Distr α) : Prop := ∀ f, mean d f = mean d' f

theorem Alike.refl (d : Distr α) : Alike d d := fun _ => rfl

theorem mean_nil (f : α → Rat) : mean [] f = 0 := rfl

theorem mean_append (d d' : Distr α) (f : α → Rat) : mean (d ++ d') f = mean d f + mean d' f := by
  simp only [mean, List.map_append, List.sum_append]

theorem mean_sure (a : α) (f : α → Rat) : mean (Distr.sure a) f = f a := by simp [mean, Distr.sure]

theorem mean_map (g : α → β) (d : Distr α) (f : β → Rat) : mean (Distr.map g d) f = mean d fun a => f (g a) := by
  simp only [mean, Distr.map, List.map_map, Function.comp_def]

theorem mean_scale (x : Rat) (d : Distr α) (f : α → Rat) : mean (List.map (fun y => (y.1, x * y.2)) d) f = x * mean d f := by
  induction d with
  | nil => simp [mean]
  | cons a d ih => simp only [mean, List.map_cons, List.sum_cons] at ih ⊢; rw [ih]; ring

theorem mean_flatMap (l : List β) (g : β → Distr α) (f : α → Rat) :
    mean (l.flatMap g) f = (l.map fun b => mean (g b) f).sum := by
  induction l with
  | nil => rfl
  | cons a l ih => rw [List.flatMap_cons, mean_append, ih, List.map_cons, List.sum_cons]

theorem mean_bind (d : Distr α) (g : α → Distr β) (f : β → Rat) :
    mean (Distr.bind d g) f = mean d fun a => mean (g a) f := by
  unfold Distr.bind
  rw [mean_flatMap]
  simp only [mean_scale]
  rfl

theorem mean_congr (d : Distr α) {f g : α → Rat} (h : ∀ x ∈ d, f x.1 = g x.1) : mean d f = mean d g := by
  unfold mean
  congr 1
  exact List.map_congr_left fun x hx => by rw [h x hx]

theorem Alike.map (g : α → β) {d d' : Distr α} (h : Alike d d') : Alike (Distr.map g d) (Distr.map g d') := by
  intro f; rw [mean_map, mean_map]; exact h _

theorem Alike.bind {d d' : Distr α} {g g' : α → Distr β} (h : Alike d d') (hg : ∀ x ∈ d, Alike (g x.1) (g' x.1)) :
    Alike (Distr.bind d g) (Distr.bind d' g') := by
  intro f
  rw [mean_bind, mean_bind, ← h]
  exact mean_congr d fun x hx => hg x hx f

theorem Alike.all {ds ds' : List (Distr α)} (h : List.Forall₂ Alike ds ds') : Alike (Distr.all ds) (Distr.all ds') := by
  induction h with
  | nil => exact .refl _
  | cons h _ ih => exact h.bind fun _ _ => ih.map _

theorem of_eq_mean [DecidableEq α] (d : Distr α) (a : α) : d.of a = mean d fun x => if x = a then 1 else 0 := by
  unfold Distr.of mean
  induction d with
  | nil => rfl
  | cons x d ih =>
    by_cases h : x.1 = a
    · simp only [List.filter_cons, h, decide_true, if_true, List.map_cons, List.sum_cons, ih, mul_one]
    · simp only [List.filter_cons, h, decide_false, Bool.false_eq_true, if_false, List.map_cons, List.sum_cons, ih, mul_zero, zero_add]

theorem Alike.of [DecidableEq α] {d d' : Distr α} (h : Alike d d') (a : α) : d.of a = d'.of a := by
  rw [of_eq_mean, of_eq_mean]; exact h _

theorem mean_add (d : Distr α) (f g : α → Rat) : mean d (fun a => f a + g a) = mean d f + mean d g := by
  induction d with
  | nil => simp [mean]
  | cons a d ih => simp only [mean, List.map_cons, List.sum_cons] at ih ⊢; rw [ih]; ring

theorem mean_mul (d : Distr α) (x : Rat) (f : α → Rat) : mean d (fun a => x * f a) = x * mean d f := by
  induction d with
  | nil => simp [mean]
  | cons a d ih => simp only [mean, List.map_cons, List.sum_cons] at ih ⊢; rw [ih]; ring

theorem mean_swap (d : Distr α) (d' : Distr β) (f : α → β → Rat) :
    mean d (fun a => mean d' fun b => f a b) = mean d' fun b => mean d fun a => f a b := by
  induction d with
  | nil => unfold mean; simp
  | cons x d ih =>
    have e : ∀ g : α → Rat, mean (x :: d) g = x.2 * g x.1 + mean d g := fun g => by simp [mean]
    rw [e]
    simp only [e]
    rw [ih, mean_add, mean_mul]

/-! ### Picking -/

/-- The mean after picking `k` of the distributions and drawing from each. -/
def picked (k : Nat) (l : List (Distr α × Rat)) (F : List α → Rat) : Rat := mean ((pickings k l).bind Distr.all) F

theorem picked_zero (l : List (Distr α × Rat)) (F : List α → Rat) : picked 0 l F = F [] := by
  unfold picked
  rw [mean_bind]
  simp only [pickings, mean_sure, Distr.all]

theorem picked_succ (k : Nat) (l : List (Distr α × Rat)) (F : List α → Rat) :
    picked (k + 1) l F = ((splits l).map fun x =>
      x.1.2 / total l * mean x.1.1 fun a => picked k x.2 fun t => F (a :: t)).sum := by
  unfold picked
  rw [mean_bind]
  simp only [pickings]
  rw [mean_flatMap]
  congr 1
  refine List.map_congr_left fun x _ => ?_
  have e : (List.map (fun y => (x.1.1 :: y.1, x.1.2 / total l * y.2)) (pickings k x.2) : Distr (List (Distr α))) =
      List.map (fun y => (y.1, x.1.2 / total l * y.2)) (Distr.map (x.1.1 :: ·) (pickings k x.2)) := by
    simp only [Distr.map, List.map_map, Function.comp_def]
  rw [e, mean_scale, mean_map]
  congr 1
  simp only [Distr.all, mean_bind, mean_map]
  rw [mean_swap]

theorem splits_forall₂ {R : α → β → Prop} {l : List α} {l' : List β} (h : List.Forall₂ R l l') :
    List.Forall₂ (fun x y => R x.1 y.1 ∧ List.Forall₂ R x.2 y.2) (splits l) (splits l') := by
  induction h with
  | nil => exact .nil
  | cons h h' ih =>
    refine .cons ⟨h, h'⟩ ?_
    rw [List.forall₂_map_left_iff, List.forall₂_map_right_iff]
    exact ih.imp fun _ _ hxy => ⟨hxy.1, .cons h hxy.2⟩

theorem sum_forall₂ {R : α → β → Prop} {l : List α} {l' : List β} (h : List.Forall₂ R l l') {f : α → Rat} {g : β → Rat}
    (hf : ∀ a b, R a b → f a = g b) : (l.map f).sum = (l'.map g).sum := by
  induction h with
  | nil => rfl
  | cons h _ ih => rw [List.map_cons, List.map_cons, List.sum_cons, List.sum_cons, ih, hf _ _ h]

theorem picked_alike (k : Nat) {l l' : List (Distr α × Rat)} (h : List.Forall₂ (fun x y => Alike x.1 y.1 ∧ x.2 = y.2) l l')
    (F : List α → Rat) : picked k l F = picked k l' F := by
  induction k generalizing l l' F with
  | zero => rw [picked_zero, picked_zero]
  | succ k ih =>
    rw [picked_succ, picked_succ]
    have ht : total l = total l' := sum_forall₂ h fun _ _ h => h.2
    refine sum_forall₂ (splits_forall₂ h) fun x y hxy => ?_
    rw [ht, hxy.1.2, hxy.1.1 _]
    congr 2
    funext a
    exact ih hxy.2 _

theorem sum_splits_perm {l l' : List α} (h : l.Perm l') (g : α → List α → Rat) (hg : ∀ a r r', r.Perm r' → g a r = g a r') :
    ((splits l).map fun x => g x.1 x.2).sum = ((splits l').map fun x => g x.1 x.2).sum := by
  induction h generalizing g with
  | nil => rfl
  | cons x h ih =>
    simp only [splits, List.map_cons, List.sum_cons, List.map_map, Function.comp_def]
    rw [hg _ _ _ h]
    congr 1
    exact ih (fun a r => g a (x :: r)) fun a r r' hr => hg _ _ _ (hr.cons x)
  | swap x y l =>
    simp only [splits, List.map_cons, List.sum_cons, List.map_map, Function.comp_def]
    have : ∀ z : α × List α, g z.1 (y :: x :: z.2) = g z.1 (x :: y :: z.2) := fun z => hg _ _ _ (.swap ..)
    simp only [this]
    ring
  | trans h1 _ ih1 ih2 => rw [ih1 g hg, ih2 g hg]

theorem picked_perm (k : Nat) {l l' : List (Distr α × Rat)} (h : l.Perm l') (F : List α → Rat) :
    picked k l F = picked k l' F := by
  induction k generalizing l l' F with
  | zero => rw [picked_zero, picked_zero]
  | succ k ih =>
    rw [picked_succ, picked_succ]
    have ht : total l = total l' := (h.map _).sum_eq
    rw [ht]
    exact sum_splits_perm h (fun x r => x.2 / total l' * mean x.1 fun a => picked k r fun t => F (a :: t)) fun a r r' hr => by
      congr 2
      funext b
      exact ih hr _

theorem variantDist_alike {l mid l' : List (Distr Str × Rat)} (h : List.Forall₂ (fun x y => Alike x.1 y.1 ∧ x.2 = y.2) l mid)
    (hp : mid.Perm l') (lo hi : Int) (sep : Str) : Alike (variantDist l lo hi sep) (variantDist l' lo hi sep) := by
  unfold variantDist
  rw [h.length_eq, hp.length_eq]
  refine (Alike.refl _).bind fun x _ => Alike.map _ fun F => ?_
  exact (picked_alike x.1 h F).trans (picked_perm x.1 hp F)

/-! ### Chances -/

theorem chanceAll_perm {vars : List (Str × Cmd)} {being : List Str} {l l' : List (Cmd × Rat)} {Ds : List (Distr Str)}
    (hp : l.Perm l') (h : ChanceAll E vars being (l.map (·.1)) Ds) :
    ∃ Ds', ChanceAll E vars being (l'.map (·.1)) Ds' ∧ (Ds.zip (l.map (·.2))).Perm (Ds'.zip (l'.map (·.2))) := by
  induction hp generalizing Ds with
  | nil => exact ⟨Ds, h, .refl _⟩
  | cons x _ ih =>
    cases h with
    | cons h1 h2 =>
      obtain ⟨Ds', h3, h4⟩ := ih h2
      exact ⟨_, .cons h1 h3, h4.cons _⟩
  | swap x y l =>
    cases h with
    | cons h1 h2 =>
      cases h2 with
      | cons h2 h3 => exact ⟨_, .cons h2 (.cons h1 h3), .swap ..⟩
  | trans _ _ ih1 ih2 =>
    obtain ⟨Ds', h3, h4⟩ := ih1 h
    obtain ⟨Ds'', h5, h6⟩ := ih2 h3
    exact ⟨_, h5, h4.trans h6⟩

theorem inside_weights {ok : List Rat → Prop} {l l' : List (Cmd × Rat)} (h : ReorderedInside ok l l') :
    l'.map (·.2) = l.map (·.2) := by
  match h with
  | .nil => rfl
  | .cons _ h => simp only [List.map_cons, inside_weights h]

theorem zip_alike {Ds Ds' : List (Distr Str)} (h : List.Forall₂ Alike Ds Ds') (ws : List Rat) :
    List.Forall₂ (fun x y => Alike x.1 y.1 ∧ x.2 = y.2) (Ds.zip ws) (Ds'.zip ws) := by
  induction h generalizing ws with
  | nil => exact .nil
  | cons h _ ih =>
    cases ws with
    | nil => exact .nil
    | cons w ws => exact .cons ⟨h, rfl⟩ (ih ws)

mutual
theorem chance_reordered {vars : List (Str × Cmd)} {being : List Str} {c c' : Cmd} {P : Distr Str} :
    Reordered Together c c' → Chance E vars being c P → ∃ P', Chance E vars being c' P' ∧ Alike P P'
  | .same, h => ⟨P, h, .refl _⟩
  | .seq hr, h => by
      cases h with
      | cmd hm h =>
        cases h with
        | @seq _ _ _ sep _ toks N Ds h1 h2 =>
          obtain ⟨toks', h3, h4⟩ := chanceAssign_reordered hr h1
          have h5 : ∀ new, ∃ D', (∀ q, (new, q) ∈ N → ChanceAll E (new ++ vars) being toks' D' ∧ List.Forall₂ Alike (Ds new) D') := by
            intro new
            by_cases hN : ∃ q, (new, q) ∈ N
            · obtain ⟨q, hq⟩ := hN
              obtain ⟨D', h6, h7⟩ := h4 (h2 _ hq)
              exact ⟨D', fun _ _ => ⟨h6, h7⟩⟩
            · exact ⟨[], fun q hq => absurd ⟨q, hq⟩ hN⟩
          choose Ds' hDs using h5
          refine ⟨_, .cmd hm (.seq h3 (Ds := Ds') fun x hx => (hDs x.1 x.2 hx).1), ?_⟩
          exact (Alike.refl N).bind fun x hx => (Alike.all (hDs x.1 x.2 hx).2).map _
  | .variant (opts := opts) (mid := mid) (opts' := opts') (lo := lo) (hi := hi) (sep := sep) hr hp hn hn' hok, h => by
      have hlen : opts'.length = opts.length := hp.length_eq.symm.trans (ReorderedInside_length hr)
      have hw := inside_weights hr
      cases h with
      | cmd hm h =>
        cases h with
        | @variant _ _ _ _ _ _ m Ds h1 h2 h3 h4 h5 h6 =>
          obtain ⟨Ds1, h7, h8⟩ := chanceInside_reordered hr h6
          obtain ⟨Ds2, h9, h10⟩ := chanceAll_perm hp h7
          have hmem : ∀ p' ∈ opts', ∃ p ∈ opts, p.2 = p'.2 := by
            intro p' hp'
            have : p'.2 ∈ opts'.map (·.2) := List.mem_map.2 ⟨p', hp', rfl⟩
            rw [← (hp.map _).mem_iff, hw] at this
            exact List.mem_map.1 this
          refine ⟨_, .cmd hm (.variant (Ds := Ds2) (by omega) h2 ?_ ?_ ?_ h9), ?_⟩
          · intro p' hp'
            obtain ⟨p, hp1, hp2⟩ := hmem p' hp'
            rw [← hp2]; exact h3 p hp1
          · have : total opts' = total opts := by
              unfold total
              rw [← hw]; exact ((hp.map _).sum_eq).symm
            rw [this]; exact h4
          · intro hk
            refine ⟨fun p' hp' => ?_, hn', hok hk⟩
            obtain ⟨p, hp1, hp2⟩ := hmem p' hp'
            rw [← hp2]; exact (h5 hk).1 p hp1
          · refine variantDist_alike (zip_alike h8 _) ?_ lo hi sep
            rw [← hw]; exact h10
        | variantSingle h1 h2 =>
          cases hr with
          | cons hc hr =>
            cases hr
            cases List.singleton_perm.1 hp
            obtain ⟨P', h3, h4⟩ := chance_reordered hc h2
            refine ⟨P', .cmd hm (.variantSingle ?_ h3), h4⟩
            rintro ⟨p, m, v, w, e⟩
            simp only [List.cons.injEq, Prod.mk.injEq, and_true] at e
            obtain ⟨rfl, -⟩ := e
            cases reordered_wild' hc
            exact h1 ⟨_, _, _, _, rfl⟩
        | variantWild h1 h2 h3 h4 =>
          cases hr with
          | cons hc hr =>
            cases hr
            cases List.singleton_perm.1 hp
            cases reordered_wild hc
            exact ⟨_, .cmd hm (.variantWild h1 h2 h3 h4), .refl _⟩
  | .wrap hw hi, h => by
      cases h with
      | cmd hm h =>
        cases h with
        | wrap h1 h2 =>
          obtain ⟨P', h3, h4⟩ := chance_reordered hw h1
          obtain ⟨Q', h5, h6⟩ := chance_reordered hi h2
          exact ⟨_, .cmd hm (.wrap h3 h5), h4.bind fun _ _ => h6.map _⟩
theorem chanceAssign_reordered {vars : List (Str × Cmd)} {being : List Str} {cs cs' toks : List Cmd}
    {N : Distr (List (Str × Cmd))} : ReorderedAll Together cs cs' → ChanceAssign E vars being cs toks N →
      ∃ toks', ChanceAssign E vars being cs' toks' N ∧ ∀ {V Ps}, ChanceAll E V being toks Ps →
        ∃ Ps', ChanceAll E V being toks' Ps' ∧ List.Forall₂ Alike Ps Ps'
  | .nil, h => by
      cases h
      exact ⟨[], .nil, fun h => by cases h; exact ⟨[], .nil, .nil⟩⟩
  | .cons hc hcs, h => by
      cases h with
      | tok h1 h2 =>
        obtain ⟨toks', h3, h4⟩ := chanceAssign_reordered hcs h2
        refine ⟨_, .tok (reordered_not_assigned hc h1) h3, fun h => ?_⟩
        cases h with
        | cons h5 h6 =>
          obtain ⟨P', h7, h8⟩ := chance_reordered hc h5
          obtain ⟨Ps', h9, h10⟩ := h4 h6
          exact ⟨_, .cons h7 h9, .cons h8 h10⟩
      | keep h1 h2 =>
        obtain ⟨toks', h3, h4⟩ := chanceAssign_reordered hcs h2
        cases reordered_assign hc
        exact ⟨_, .keep h1 h3, h4⟩
      | plain h1 h2 =>
        obtain ⟨toks', h3, h4⟩ := chanceAssign_reordered hcs h2
        cases reordered_assign hc
        exact ⟨_, .plain h1 h3, h4⟩
      | literal h1 h2 =>
        obtain ⟨toks', h3, h4⟩ := chanceAssign_reordered hcs h2
        cases reordered_assign hc
        exact ⟨_, .literal h1 h3, h4⟩
      | immediate h1 hl hP h2 =>
        obtain ⟨toks', h3, h4⟩ := chanceAssign_reordered hcs h2
        cases reordered_assign hc
        exact ⟨_, .immediate h1 hl hP h3, h4⟩
theorem chanceInside_reordered {vars : List (Str × Cmd)} {being : List Str} {opts mid : List (Cmd × Rat)}
    {Ds : List (Distr Str)} : ReorderedInside Together opts mid → ChanceAll E vars being (opts.map (·.1)) Ds →
      ∃ Ds', ChanceAll E vars being (mid.map (·.1)) Ds' ∧ List.Forall₂ Alike Ds Ds'
  | .nil, h => by
      cases h
      exact ⟨[], .nil, .nil⟩
  | .cons hc hcs, h => by
      cases h with
      | cons h1 h2 =>
        obtain ⟨P', h3, h4⟩ := chance_reordered hc h1
        obtain ⟨Ds', h5, h6⟩ := chanceInside_reordered hcs h2
        exact ⟨_, .cons h3 h5, .cons h4 h6⟩
end

end Verif
