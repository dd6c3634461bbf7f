import Verif.Proofs.Uniform
/-!
# Fair shuffling and choosing (C88)

With a fair source of random numbers (`Spec/Fair.lean`), every arrangement of a shuffled collection is
equally likely, and so is every element for Jinja's `choice`; `weighted_choice` follows the weights.
-/

namespace Verif.Props
open Verif Verif.Spec
variable {W R α : Type}

/-- **C88.**  Every arrangement of the values is equally likely: `n` different values come out in a given
order with probability `1 / n!`; if values occur several times, the arrangements that look the same add
up. -/
theorem shuffle_uniform [DecidableEq α] (r : Rng W) (pr : (W → Prop) → ℝ) (hf : Fair r pr) (l l' : List α) :
    pr (fun w => (r.shuffle l w).1 = l') = (l.permutations.count l' : ℝ) / (l.length.factorial : ℝ) := by
  have h := fair_results hf (shuffleEvents (l.length - 1) l) (shuffleEvents_proper _ _)
    (shuffleEvents_one r _ _) (fun l' w => (r.shuffle l w).1 = l') (fun w b b' h h' => h.symm.trans h')
    (fun y hy w hw => shuffleEvents_run r _ _ w y hy hw) l'
  rw [h]
  have hc : ∀ y ∈ shuffleEvents (l.length - 1) l, Event.chance y.1 = 1 / (l.length.factorial : Rat) := by
    intro y hy
    rw [shuffleEvents_chance _ _ y hy]
    cases l with
    | nil => rfl
    | cons a l => simp
  have key : ∀ L : List (Event × List α), (∀ y ∈ L, Event.chance y.1 = 1 / (l.length.factorial : Rat)) →
      Distr.of (L.map fun y => (y.2, Event.chance y.1)) l' =
        ((L.map (·.2)).count l' : Rat) / (l.length.factorial : Rat) := by
    intro L hL
    induction L with
    | nil => simp [Distr.of]
    | cons y L ih =>
      have ih := ih fun y hy => hL y (by simp [hy])
      have hy := hL y (by simp)
      simp only [Distr.of, List.map_cons, List.filter_cons, List.count_cons] at ih ⊢
      by_cases h : y.2 = l'
      · simp only [h, decide_true, if_true, List.map_cons, List.sum_cons, ih, hy, beq_self_eq_true]
        push_cast
        ring
      · simp [h, ih]
  rw [key _ hc, (shuffleEvents_all l).count_eq]
  push_cast
  rfl

/-- **C88.**  In particular, `n` different values come out in every order with probability `1 / n!`. -/
theorem shuffle_every_order [DecidableEq α] (r : Rng W) (pr : (W → Prop) → ℝ) (hf : Fair r pr) (l l' : List α)
    (hl : l.Nodup) (hp : l'.Perm l) :
    pr (fun w => (r.shuffle l w).1 = l') = 1 / (l.length.factorial : ℝ) := by
  rw [shuffle_uniform r pr hf, List.count_eq_one_of_mem (List.nodup_permutations _ hl) (List.mem_permutations.2 hp)]
  simp

/-- **C88.**  No order is impossible: for every arrangement there are random numbers with which shuffling
returns it. -/
theorem shuffle_reaches (l l' : List α) (hp : l'.Perm l) : ∃ w : Tape, (tape.shuffle l w).1 = l' := by
  classical
  obtain ⟨pr, hf⟩ := fair_tape
  by_contra hno
  have h := shuffle_uniform tape pr hf l l'
  rw [show (fun w => (tape.shuffle l w).1 = l') = fun _ => False from by
    funext w; exact eq_false fun e => hno ⟨w, e⟩, fair_empty hf] at h
  have h1 : 0 < l.permutations.count l' := List.count_pos_iff.2 (List.mem_permutations.2 hp)
  have h2 : (0 : ℝ) < (l.permutations.count l' : ℝ) / (l.length.factorial : ℝ) := by
    have := Nat.factorial_pos l.length
    positivity
  linarith

/-- **C88.**  Jinja's `choice` returns every item with the same probability (an item that is listed
several times accordingly more often). -/
theorem choice_uniform [DecidableEq α] (r : Rng W) (pr : (W → Prop) → ℝ) (hf : Fair r pr) (l : List α)
    (hl : l ≠ []) (a : α) :
    pr (fun w => ∃ w', jinjaChoice r l w = .ok a w') = (l.count a : ℝ) / (l.length : ℝ) := by
  obtain ⟨b, t, rfl⟩ := List.exists_cons_of_ne_nil hl
  obtain ⟨L, h1, h2, h3⟩ := Dis1.below (r := r) (x := jinjaChoice r (b :: t)) (R := Eq) (l := b :: t) (n := t.length)
    rfl (fun w c hc => ⟨c, by
      simp only [jinjaChoice, Rng.choice, List.getD_eq_getElem?_getD, hc, Option.getD_some], rfl⟩)
  have h := fair_results hf L h1 (h3 ()).one (fun a w => ∃ w', jinjaChoice r (b :: t) w = .ok a w')
    (by rintro w c c' ⟨w1, e1⟩ ⟨w2, e2⟩; rw [e1] at e2; exact (Res.ok.inj e2).1)
    (by
      intro y hy w hw
      obtain ⟨w', hw'⟩ := Option.isSome_iff_exists.1 hw
      obtain ⟨c, hc, rfl⟩ := (h3 ()).run y hy w w' hw'
      exact ⟨w', hc⟩) a
  rw [h]
  rw [show (L.map fun y => (y.2, Event.chance y.1)) = _ from h2.1]
  have key : ∀ l : List α, ∀ q : Rat, Distr.of (l.map fun b => (b, q)) a = l.count a * q := by
    intro l q
    induction l with
    | nil => simp [Distr.of]
    | cons c l ih =>
      simp only [Distr.of, List.map_cons, List.filter_cons, List.count_cons] at ih ⊢
      by_cases h : c = a
      · simp only [h, decide_true, if_true, List.map_cons, List.sum_cons, ih, beq_self_eq_true]
        push_cast
        ring
      · simp [h, ih]
  rw [key]
  simp only [List.length_cons]
  push_cast
  ring

/-- **C88.**  Jinja's `weighted_choice` returns items in proportion to their weights. -/
theorem weighted_choice_proportional [DecidableEq α] (r : Rng W) (hA : r.arith = .exact) (pr : (W → Prop) → ℝ)
    (hf : Fair r pr) (l : List (α × Rat)) (hw : ∀ p ∈ l, 0 ≤ p.2) (hpos : 0 < (l.map (·.2)).sum) (a : α) :
    pr (fun w => ∃ w', jinjaWeightedChoice r l w = .ok a w') =
      ((((l.filter fun p => p.1 = a).map (·.2)).sum / (l.map (·.2)).sum : Rat) : ℝ) := by
  have : Fact (r.arith = .exact) := ⟨hA⟩
  have hne : ¬ l.isEmpty = true := by
    intro h
    rw [List.isEmpty_iff.1 h] at hpos
    simp at hpos
  have hd : Dis1 r (jinjaWeightedChoice r l) Eq (oneOf l) := by
    obtain ⟨L, h1, h2, h3⟩ := dis_choices (r := r) (l := l) (pop := l.map (·.1)) (f := id) rfl hw hpos 0
    refine ⟨L, h1, h2, fun i => ⟨(h3 i).one, fun y hy w w' hw' => ?_⟩⟩
    obtain ⟨vs, hvs, vs', rfl, -⟩ := (h3 i).run y hy w w' hw'
    refine ⟨y.2, ?_, rfl⟩
    unfold jinjaWeightedChoice
    rw [if_neg hne, hA]
    exact M.bind_of_ok hvs
  obtain ⟨L, h1, h2, h3⟩ := hd
  have h := fair_results hf L h1 (h3 ()).one (fun a w => ∃ w', jinjaWeightedChoice r l w = .ok a w')
    (by rintro w c c' ⟨w1, e1⟩ ⟨w2, e2⟩; rw [e1] at e2; exact (Res.ok.inj e2).1)
    (by
      intro y hy w hw
      obtain ⟨w', hw'⟩ := Option.isSome_iff_exists.1 hw
      obtain ⟨c, hc, rfl⟩ := (h3 ()).run y hy w w' hw'
      exact ⟨w', hc⟩) a
  rw [h, show (L.map fun y => (y.2, Event.chance y.1)) = _ from h2.1]
  congr 1
  have key : ∀ (m : List (α × Rat)) (q : Rat), Distr.of (m.map fun x => (x.1, x.2 / q)) a =
      ((m.filter fun p => p.1 = a).map (·.2)).sum / q := by
    intro m q
    induction m with
    | nil => simp [Distr.of]
    | cons c m ih =>
      simp only [Distr.of, List.map_cons, List.filter_cons] at ih ⊢
      by_cases h : c.1 = a
      · simp only [h, decide_true, if_true, List.map_cons, List.sum_cons, ih, add_div]
      · simp [h, ih]
  exact key l _

/-- **C88.**  A manager with shuffling on returns the values of a wildcard in every order with the same
probability: two lists of different items that differ only in their order are equally likely. -/
theorem get_values_equally_likely (cfg : MgrCfg R) (pr : (R → Prop) → ℝ) (hf : Fair cfg.rng pr) (s : Mgr R)
    (hs : s.shuffle = true) (w : Str) (l l' : List Item) (hl : l.Nodup) (hp : l'.Perm l) :
    pr (fun x => ∃ s', Mgr.getValues cfg w { s with rand := x } = .ok l s') =
      pr (fun x => ∃ s', Mgr.getValues cfg w { s with rand := x } = .ok l' s') := by
  cases h : Mgr.getValuesRaw cfg w s with
  | ok v s1 =>
    have hs1 : s1.shuffle = true := ((NoRand.getValuesRaw cfg w).keeps _ _ _ h).trans hs
    have e : ∀ l : List Item, (fun x => ∃ s', Mgr.getValues cfg w { s with rand := x } = .ok l s') =
        fun x => (cfg.rng.shuffle v x).1 = l := by
      intro l
      funext x
      unfold Mgr.getValues
      rw [(NoRand.getValuesRaw cfg w).same s x, h]
      simp only [Res.onWorld, hs1, if_true]
      apply propext
      constructor
      · rintro ⟨s', e⟩; exact (Res.ok.inj e).1
      · intro e; exact ⟨_, by rw [e]⟩
    rw [e l, e l', shuffle_uniform _ pr hf, shuffle_uniform _ pr hf]
    by_cases hv : l.Perm v
    · have hn := List.nodup_permutations v (hv.nodup_iff.1 hl)
      rw [List.count_eq_one_of_mem hn (List.mem_permutations.2 hv),
        List.count_eq_one_of_mem hn (List.mem_permutations.2 (hp.trans hv))]
    · rw [List.count_eq_zero_of_not_mem fun hm => hv (List.mem_permutations.1 hm),
        List.count_eq_zero_of_not_mem fun hm => hv (hp.symm.trans (List.mem_permutations.1 hm))]
  | err e s1 =>
    have : ∀ l : List Item, (fun x => ∃ s', Mgr.getValues cfg w { s with rand := x } = .ok l s') =
        fun _ => False := by
      intro l
      funext x
      unfold Mgr.getValues
      rw [(NoRand.getValuesRaw cfg w).same s x, h]
      simp [Res.onWorld]
    rw [this l, this l']
  | fuel =>
    have : ∀ l : List Item, (fun x => ∃ s', Mgr.getValues cfg w { s with rand := x } = .ok l s') =
        fun _ => False := by
      intro l
      funext x
      unfold Mgr.getValues
      rw [(NoRand.getValuesRaw cfg w).same s x, h]
      simp [Res.onWorld]
    rw [this l, this l']

/-- **C88.**  The feeling lucky generator picks independently among the images the service answers, all
images being equally likely: a list of prompts has the product of the shares of its prompts as
probability. -/
theorem lucky_uniform (r : Rng W) (hA : r.arith = .exact) (pr : (W → Prop) → ℝ) (hf : Fair r pr)
    (digits : Int → Str) (query : Str → M W (List (Option Str))) (inner : PGen W) (search q : Str) (qs : List Str)
    (images : List Str) (hi : ∀ w, inner search 1 w = .ok (q :: qs) w) (hq : strip q ≠ [])
    (hquery : ∀ w, query q w = .ok (images.map some) w) (hne : images ≠ []) (l : List Str) :
    pr (fun w => ∃ w', luckyGenerate r digits query inner search l.length w = .ok l w') =
      ((l.map fun p => (images.count p : Rat) / (images.length : Rat)).prod : Rat) := by
  have hprompts : ∀ l : List Str, Verif.promptsOf (l.map some) = .ok l := by
    intro l
    induction l with
    | nil => rfl
    | cons a l ih => simp [Verif.promptsOf, ih]
  have hrun : ∀ w, luckyGenerate r digits query inner search l.length w =
      luckyTry r query l.length q w := by
    intro w
    refine (M.bind_of_ok (hi w)).trans ?_
    dsimp only
    rw [if_neg hq]
    rfl
  have hmap : ∀ k, r.choices (images.map some) k = (do
      let vs ← r.choices images k
      return vs.map some) := by
    intro k
    induction k with
    | zero => rfl
    | succ k ih =>
      funext w
      simp only [Rng.choices, List.length_map, List.getElem?_map]
      cases hp : images[(r.arith.times (r.unit w).1.val images.length).floor.toNat]? with
      | none =>
        refine (M.bind_of_err (e := .index) (w' := (r.unit w).2) ?_).symm
        simp only [hp]
      | some v =>
        have e : r.choices images (k + 1) w = (do let vs ← r.choices images k; return v :: vs : M W (List Str))
            (r.unit w).2 := by simp only [Rng.choices, hp]
        simp only [Option.map_some, ih]
        cases hk : r.choices images k (r.unit w).2 with
        | ok vs w' =>
          rw [M.bind_of_ok (hk)] at e
          refine Eq.trans ?_ (M.bind_of_ok (f := fun vs => pure (vs.map some)) e).symm
          exact M.bind_of_ok (M.bind_of_ok hk)
        | err er w' =>
          rw [M.bind_of_err hk] at e
          exact (M.bind_of_err (M.bind_of_err hk)).trans (M.bind_of_err e).symm
        | fuel =>
          have f1 : ∀ {β γ : Type} (x : M W β) (g : β → M W γ) (w : W), x w = .fuel → (x >>= g) w = .fuel := by
            intro β γ x g w h
            show M.bind x g w = _
            unfold M.bind
            rw [h]
          rw [f1 _ _ _ hk] at e
          exact (f1 _ _ _ (f1 _ _ _ hk)).trans (f1 _ _ _ e).symm
  obtain ⟨L, h1, h2, h3⟩ := dis_plain_choices hA images hne l.length
  have htry : ∀ y ∈ L, ∀ w, Event.happens r y.1 w = true →
      ∃ w', luckyGenerate r digits query inner search l.length w = .ok y.2 w' := by
    intro y hy w hw
    obtain ⟨w', hw'⟩ := Option.isSome_iff_exists.1 hw
    obtain ⟨c, hc, hcy⟩ := (h3 ()).run y hy w w' hw'
    refine ⟨w', ?_⟩
    rw [hrun, ← hcy]
    unfold luckyTry
    rw [M.bind_of_ok (hquery w), Int.toNat_natCast, hmap]
    have : ((do let vs ← r.choices images l.length; return vs.map some) : M W (List (Option Str))) w =
        .ok (c.map some) w' := M.bind_of_ok hc
    rw [M.bind_of_ok this, hprompts]
    rfl
  rw [fair_results hf L h1 (h3 ()).one
    (fun l' w => ∃ w', luckyGenerate r digits query inner search l.length w = .ok l' w')
    (by rintro w c c' ⟨w1, e1⟩ ⟨w2, e2⟩; rw [e1] at e2; exact (Res.ok.inj e2).1) htry l,
    show (L.map fun y => (y.2, Event.chance y.1)) = _ from h2.1, of_all]
  congr 3
  funext p
  have key : ∀ (m : List Str) (q : Rat), Distr.of (m.map fun b => (b, 1 / q)) p = m.count p / q := by
    intro m q
    induction m with
    | nil => simp [Distr.of]
    | cons c m ih =>
      simp only [Distr.of, List.map_cons, List.filter_cons, List.count_cons] at ih ⊢
      by_cases h : c = p
      · simp only [h, decide_true, if_true, List.map_cons, List.sum_cons, ih, beq_self_eq_true]
        push_cast
        ring
      · simp only [h, decide_false, Bool.false_eq_true, if_false, ih, beq_iff_eq, add_zero]
  exact key images _

/-! ### Examples -/

/-- Three values come out in the order 3, 1, 2 with probability 1/6. -/
example : ∃ pr, Fair tape pr ∧ pr (fun w => (tape.shuffle [1, 2, 3] w).1 = [3, 1, 2]) = 1 / 6 := by
  obtain ⟨pr, hf⟩ := fair_tape
  refine ⟨pr, hf, ?_⟩
  rw [shuffle_every_order tape pr hf [1, 2, 3] [3, 1, 2] (by decide) (by decide)]
  norm_num [Nat.factorial]

/-- With a value that occurs twice, arrangements that look the same add up: 2/6. -/
example : ∃ pr, Fair tape pr ∧ pr (fun w => (tape.shuffle [1, 2, 1] w).1 = [1, 1, 2]) = 1 / 3 := by
  obtain ⟨pr, hf⟩ := fair_tape
  refine ⟨pr, hf, ?_⟩
  rw [shuffle_uniform tape pr hf, (List.permutations_perm_permutations' _).count_eq]
  norm_num [Nat.factorial, List.permutations', List.permutations'Aux, List.count_cons]

/-- `choice("a", "b", "a")`. -/
example : ∃ pr, Fair tape pr ∧
    pr (fun w => ∃ w', jinjaChoice tape [c!"a", c!"b", c!"a"] w = .ok c!"a" w') = 2 / 3 := by
  obtain ⟨pr, hf⟩ := fair_tape
  refine ⟨pr, hf, ?_⟩
  rw [choice_uniform tape pr hf _ (by simp)]
  norm_num [List.count_cons]

/-- `weighted_choice(("a", 3), ("b", 1))`. -/
example : ∃ pr, Fair tape pr ∧
    pr (fun w => ∃ w', jinjaWeightedChoice tape [(c!"a", 3), (c!"b", 1)] w = .ok c!"a" w') = 3 / 4 := by
  obtain ⟨pr, hf⟩ := fair_tape
  refine ⟨pr, hf, ?_⟩
  rw [weighted_choice_proportional tape rfl pr hf _ (by decide +kernel) (by decide +kernel),
    show (((([(c!"a", 3), (c!"b", 1)] : List (Str × Rat)).filter fun p => p.1 = c!"a").map (·.2)).sum /
      (([(c!"a", 3), (c!"b", 1)] : List (Str × Rat)).map (·.2)).sum : Rat) = 3 / 4 by decide +kernel]
  norm_num

/-- Two images of three have the prompt `x`: `x`, `y` comes with probability 2/9. -/
example : ∃ pr, Fair tape pr ∧ pr (fun w => ∃ w', luckyGenerate tape (fun _ => c!"0")
    (fun _ => pure [some c!"x", some c!"y", some c!"x"]) (fun t _ => pure [t]) c!"cat" 2 w = .ok [c!"x", c!"y"] w') =
    2 / 9 := by
  obtain ⟨pr, hf⟩ := fair_tape
  refine ⟨pr, hf, ?_⟩
  have := lucky_uniform tape rfl pr hf (fun _ => c!"0") (fun _ => pure [some c!"x", some c!"y", some c!"x"])
    (fun t _ => pure [t]) c!"cat" c!"cat" [] [c!"x", c!"y", c!"x"] (fun _ => rfl) (by decide) (fun _ => rfl) (by simp)
    [c!"x", c!"y"]
  refine this.trans ?_
  rw [show (([c!"x", c!"y"] : List Str).map fun p => ((([c!"x", c!"y", c!"x"] : List Str).count p : Rat) /
    (([c!"x", c!"y", c!"x"] : List Str).length : Rat))).prod = 2 / 9 by decide +kernel]
  norm_num

/-- A manager that shuffles the file with the lines red, green and blue. -/
example : ∃ pr, Fair tape pr ∧
    let cfg : MgrCfg Tape := ⟨⟨fun _ => false, fun _ => none, fun _ => [], fun _ => none, fun _ => none⟩, c!"__",
      [([], [.path [c!"w"]])], tape⟩
    let s : Mgr Tape := { newMgr (.dir [(c!"w", .dir [(c!"b.txt", .file c!"red\ngreen\nblue")])])
      (fun _ => ⟨0, by decide +kernel⟩) with shuffle := true }
    pr (fun x => ∃ s', Mgr.getValues cfg c!"b" { s with rand := x } =
      .ok [⟨c!"red", none⟩, ⟨c!"green", none⟩, ⟨c!"blue", none⟩] s') =
    pr (fun x => ∃ s', Mgr.getValues cfg c!"b" { s with rand := x } =
      .ok [⟨c!"blue", none⟩, ⟨c!"red", none⟩, ⟨c!"green", none⟩] s') := by
  obtain ⟨pr, hf⟩ := fair_tape
  exact ⟨pr, hf, get_values_equally_likely _ pr hf _ rfl _ _ _ (by decide) (by decide)⟩

end Verif.Props
