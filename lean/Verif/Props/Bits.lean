import Verif.Proofs.Bits
import Verif.Props.Uniform
/-!
# Numbers made from random bits (C105)

Python's random numbers are made from random bits (`Model/Bits.lean`): an integer below `n` by drawing as many bits as `n`
has until the result is below `n`, and `random()` as a number with 53 binary places.  With fair bits (`Spec/Bits.lean`) the
integers are exactly uniform, `random()` falls into an interval with its length as probability up to `1 / 2 ^ 53`, and all
draws are independent.  So what is said about a fair source holds exactly where only integers are drawn (shuffling, Jinja's
`choice`), and up to `1 / 2 ^ 53` for each draw of `random()` elsewhere.
-/

namespace Verif.Props
open Verif Verif.Spec
variable {W α β : Type}

/-! ### The source -/

/-- **C105.**  Integers made from fair bits are exactly uniform. -/
theorem bits_below_uniform (b : Bits W) (pr : (W → Prop) → ℝ) (hf : FairBits b pr) (n k : Nat) (hk : k ≤ n) :
    pr (fun w => (b.below n w).1.val = k) = 1 / (n + 1) := by
  have h := event_exact hf .exact 0 0 [.below n k] (List.forall_mem_cons.2 ⟨hk, by simp⟩)
  have e : (fun w => Event.happens (b.rngWith .exact 0 0) [.below n k] w = true) = fun w => (b.below n w).1.val = k := by
    funext w
    simp only [Event.happens, Event.after]
    show _ = ((b.below n w).1.val = k)
    have : ((b.rngWith .exact 0 0).below n w).1.val = (b.below n w).1.val := rfl
    rw [this]
    by_cases hk : (b.below n w).1.val = k
    · simp [hk]
    · simp [hk]
  rw [e] at h
  simpa [Condition.fromBits] using h

/-- **C105.**  `random()` made from fair bits falls into an interval with its length as probability, up to `1 / 2 ^ 53`. -/
theorem bits_unit_near (b : Bits W) (pr : (W → Prop) → ℝ) (hf : FairBits b pr) (x y : Rat) (hx : 0 ≤ x) (hxy : x ≤ y) (hy : y ≤ 1) :
    |pr (fun w => x ≤ (b.unit w).1.val ∧ (b.unit w).1.val < y) - ((y - x : Rat) : ℝ)| ≤ 1 / 2 ^ 53 := by
  have key : ∀ i j : Nat, |pr (fun w => x ≤ (b.places i j w).1.val ∧ (b.places i j w).1.val < y) - ((y - x : Rat) : ℝ)| ≤
      1 / 2 ^ (i + j) := by
    intro i j
    have h := event_exact hf .exact i j [.unit x y] (by simpa using ⟨hx, hxy, hy⟩)
    have e : (fun w => Event.happens (b.rngWith .exact i j) [.unit x y] w = true) =
        fun w => x ≤ (b.places i j w).1.val ∧ (b.places i j w).1.val < y := by
      funext w
      simp only [Event.happens, Event.after]
      have : ((b.rngWith .exact i j).unit w) = b.places i j w := rfl
      rw [this]
      by_cases hk : x ≤ (b.places i j w).1.val ∧ (b.places i j w).1.val < y
      · simp [hk]
      · simp [hk]
    rw [e, List.map_singleton, List.prod_singleton] at h
    rw [h]
    exact fromBits_near i j hx hxy hy
  exact key 27 26

/-- **C105.**  Draws made from fair bits are independent: the probability that several draws come out in given ways is the
product of their probabilities. -/
theorem bits_independent (b : Bits W) (arith : Arith) (pr : (W → Prop) → ℝ) (hf : FairBits b pr) (e : Event) (he : ∀ c ∈ e, c.Proper) :
    pr (fun w => Event.happens (b.rng arith) e w = true) =
      (e.map fun c => pr fun w => Event.happens (b.rng arith) [c] w = true).prod := by
  have key : ∀ i j : Nat, pr (fun w => Event.happens (b.rngWith arith i j) e w = true) =
      (e.map fun c => pr fun w => Event.happens (b.rngWith arith i j) [c] w = true).prod := by
    intro i j
    rw [event_exact hf arith i j e he]
    refine congrArg List.prod (List.map_congr_left fun c hc => ?_)
    rw [event_exact hf arith i j [c] (by simpa using he c hc)]
    simp
  exact key 27 26

/-- **C105.**  A source made from fair bits is nearly fair. -/
theorem bits_nearly_fair (b : Bits W) (arith : Arith) (pr : (W → Prop) → ℝ) (hf : FairBits b pr) :
    NearlyFair (b.rng arith) pr (1 / 2 ^ 53) := by
  have key : ∀ i j : Nat, NearlyFair (b.rngWith arith i j) pr (1 / 2 ^ (i + j)) := nearly_fair_with hf arith
  exact key 27 26

/-! ### What is made from it -/

theorem near_sum {r : Rng W} {pr : (W → Prop) → ℝ} {ε : ℝ} (hf : NearlyFair r pr ε) (L : List (Event × β))
    (hp : ∀ y ∈ L, ∀ c ∈ y.1, c.Proper) :
    |(L.map fun y => pr fun w => Event.happens r y.1 w = true).sum - (((L.map fun y => Event.chance y.1).sum : Rat) : ℝ)| ≤
      ((L.map fun y => y.1.units).sum : ℕ) * ε := by
  induction L with
  | nil => simp
  | cons y L ih =>
    have h1 := ih fun y hy => hp y (List.mem_cons_of_mem _ hy)
    have h2 := hf.event y.1 (hp y (List.mem_cons_self ..))
    simp only [List.map_cons, List.sum_cons]
    push_cast at h1 ⊢
    have e : ∀ a b c d : ℝ, a + b - (c + d) = (a - c) + (b - d) := fun a b c d => by ring
    rw [e, add_mul]
    exact (abs_add_le _ _).trans (add_le_add h2 h1)

/-- Events that divide all outcomes, each giving one result, determine the probability of a result up to `ε` for each number
drawn. -/
theorem near_results {r : Rng W} {pr : (W → Prop) → ℝ} {ε : ℝ} (hf : NearlyFair r pr ε) [DecidableEq β] (L : List (Event × β))
    (hp : ∀ y ∈ L, ∀ c ∈ y.1, c.Proper) (h1 : ∀ w, L.countP (fun y => Event.happens r y.1 w) = 1)
    (A : β → W → Prop) (huniq : ∀ w b b', A b w → A b' w → b = b')
    (hA : ∀ y ∈ L, ∀ w, Event.happens r y.1 w = true → A y.2 w) (b : β) :
    |pr (A b) - ((Distr.of (L.map fun y => (y.2, Event.chance y.1)) b : Rat) : ℝ)| ≤
      (((L.filter fun y => y.2 = b).map fun y => y.1.units).sum : ℕ) * ε := by
  rw [pr_results hf.add r L h1 A huniq hA b]
  have e : Distr.of (L.map fun y => (y.2, Event.chance y.1)) b = ((L.filter fun y => y.2 = b).map fun y => Event.chance y.1).sum := by
    unfold Distr.of
    rw [List.filter_map, List.map_map]
    rfl
  rw [e]
  exact near_sum hf _ fun y hy => hp y (List.mem_filter.1 hy).1

/-- **C105.**  With a nearly fair source, the probability that random sampling returns `s` is the chance of `s`, up to `ε` for
each number of [0, 1) that is drawn in a way to get `s`. -/
theorem prompt_probability_near (E : Env W) (hA : E.rng.arith = .exact) (vars : List (Str × Cmd)) (being : List Str) (p : Prompt)
    (P : Distr Str) (h : ChancePrompt E vars being p P) :
    ∃ L : List (Event × Str), L.map (fun y => (y.2, Event.chance y.1)) = P ∧
      (∀ y ∈ L, ∀ w, Event.happens E.rng y.1 w = true → Samples E vars being p [y.2] w) ∧
      ∀ (pr : (W → Prop) → ℝ) (ε : ℝ), NearlyFair E.rng pr ε → ∀ s,
        |pr (Samples E vars being p [s]) - ((P.of s : Rat) : ℝ)| ≤ (((L.filter fun y => y.2 = s).map fun y => y.1.units).sum : ℕ) * ε := by
  obtain ⟨L, h1, h2, h3, h4⟩ := random_chances E hA vars being p P h
  refine ⟨L, h1, h4, fun pr ε hf s => ?_⟩
  have := near_results hf L h2 h3 (fun s => Samples E vars being p [s])
    (fun w b b' hb hb' => by simpa using samples_unique hb hb' rfl) h4 s
  rwa [h1] at this

/-- **C105.**  The same for several prompts of a template that keeps nothing between prompts: up to the errors, the
probabilities multiply. -/
theorem prompts_probability_near [Inhabited W] (E : Env W) (hA : E.rng.arith = .exact) (values : Str → Except Err (List Item))
    (hv : ∀ wc w, E.getValues wc w = match values wc with
      | .ok items => .ok items w
      | .error e => .err e w)
    (vars : List (Str × Cmd)) (being : List Str) (p : Prompt) (c : Cmd)
    (hp : p = .inr c ∨ ∃ t, p = .inl t ∧ E.parse t = .ok c) (hm : Memoryless E values vars c)
    (P : Distr Str) (h : ChancePrompt E vars being p P) (k : Nat) :
    ∃ L : List (Event × List Str), L.map (fun y => (y.2, Event.chance y.1)) = Distr.all (List.replicate k P) ∧
      (∀ y ∈ L, ∀ w, Event.happens E.rng y.1 w = true → Samples E vars being p y.2 w) ∧
      ∀ (pr : (W → Prop) → ℝ) (ε : ℝ), NearlyFair E.rng pr ε → ∀ ss : List Str, ss.length = k →
        |pr (Samples E vars being p ss) - (((ss.map P.of).prod : Rat) : ℝ)| ≤
          (((L.filter fun y => y.2 = ss).map fun y => y.1.units).sum : ℕ) * ε := by
  obtain ⟨L, h1, h2, h3, h4⟩ := random_independent E hA values hv vars being p c hp hm P h k
  refine ⟨L, h1, fun y hy w hw => (h4 y hy w hw).2, fun pr ε hf ss hss => ?_⟩
  have := near_results hf L h2 h3 (fun ss' w => ss'.length = k ∧ Samples E vars being p ss' w)
    (fun w b b' hb hb' => samples_unique hb.2 hb'.2 (hb.1.trans hb'.1.symm)) h4 ss
  simp only [hss, true_and] at this
  rwa [h1, ← hss, of_all] at this

theorem shuffleEvents_units (i : Nat) (l : List α) : ∀ y ∈ shuffleEvents i l, y.1.units = 0 := by
  induction i generalizing l with
  | zero => simp [shuffleEvents, Event.units]
  | succ i ih =>
    intro y hy
    simp only [shuffleEvents, List.mem_flatMap, List.mem_range, List.mem_map] at hy
    obtain ⟨k, hk, z, hz, rfl⟩ := hy
    have := ih _ z hz
    simp only [Event.units, List.countP_cons] at this ⊢
    rw [this]
    rfl

theorem shuffleEvents_of [DecidableEq α] (l l' : List α) :
    Distr.of ((shuffleEvents (l.length - 1) l).map fun y => (y.2, Event.chance y.1)) l' =
      (l.permutations.count l' : Rat) / (l.length.factorial : Rat) := by
  have hc : ∀ y ∈ shuffleEvents (l.length - 1) l, Event.chance y.1 = 1 / (l.length.factorial : Rat) := by
    intro y hy
    rw [shuffleEvents_chance _ _ y hy]
    cases l with
    | nil => rfl
    | cons a l => simp
  have key : ∀ L : List (Event × List α), (∀ y ∈ L, Event.chance y.1 = 1 / (l.length.factorial : Rat)) →
      Distr.of (L.map fun y => (y.2, Event.chance y.1)) l' =
        ((L.map (·.2)).count l' : Rat) / (l.length.factorial : Rat) := by
    intro L hL
    induction L with
    | nil => simp [Distr.of]
    | cons y L ih =>
      have ih := ih fun y hy => hL y (by simp [hy])
      have hy := hL y (by simp)
      simp only [Distr.of, List.map_cons, List.filter_cons, List.count_cons] at ih ⊢
      by_cases h : y.2 = l'
      · simp only [h, decide_true, if_true, List.map_cons, List.sum_cons, ih, hy, beq_self_eq_true]
        push_cast
        ring
      · simp [h, ih]
  rw [key _ hc, (shuffleEvents_all l).count_eq]

/-- **C105.**  With fair bits, shuffling is exactly uniform: `n` different values come out in a given order with probability
`1 / n!`. -/
theorem bits_shuffle_uniform [DecidableEq α] (b : Bits W) (arith : Arith) (pr : (W → Prop) → ℝ) (hf : FairBits b pr) (l l' : List α) :
    pr (fun w => ((b.rng arith).shuffle l w).1 = l') = (l.permutations.count l' : ℝ) / (l.length.factorial : ℝ) := by
  have h := near_results (bits_nearly_fair b arith pr hf) (shuffleEvents (l.length - 1) l) (shuffleEvents_proper _ _)
    (shuffleEvents_one _ _ _) (fun l' w => ((b.rng arith).shuffle l w).1 = l') (fun w b b' h h' => h.symm.trans h')
    (fun y hy w hw => shuffleEvents_run _ _ _ w y hy hw) l'
  have h0 : (((shuffleEvents (l.length - 1) l).filter fun y => y.2 = l').map fun y => y.1.units).sum = 0 :=
    List.sum_eq_zero fun x hx => by
      obtain ⟨y, hy, rfl⟩ := List.mem_map.1 hx
      exact shuffleEvents_units _ _ y (List.mem_filter.1 hy).1
  rw [h0, Nat.cast_zero, zero_mul, shuffleEvents_of] at h
  have := sub_eq_zero.1 (abs_nonpos_iff.1 h)
  rw [this]
  push_cast
  rfl

/-- **C105.**  With fair bits, Jinja's `choice` is exactly uniform. -/
theorem bits_choice_uniform [DecidableEq α] (b : Bits W) (arith : Arith) (pr : (W → Prop) → ℝ) (hf : FairBits b pr) (l : List α)
    (hl : l ≠ []) (a : α) :
    pr (fun w => ∃ w', jinjaChoice (b.rng arith) l w = .ok a w') = (l.count a : ℝ) / (l.length : ℝ) := by
  obtain ⟨c, t, rfl⟩ := List.exists_cons_of_ne_nil hl
  have h := near_results (bits_nearly_fair b arith pr hf) ((c :: t).mapIdx fun i x => ([Condition.below t.length i], x))
    (by
      intro y hy d hd
      obtain ⟨i, hi, rfl⟩ := List.mem_mapIdx.1 hy
      cases List.mem_singleton.1 hd
      exact Nat.le_of_lt_succ (by simpa using hi))
    (by
      intro w
      refine countP_mapIdx (k := ((b.rng arith).below t.length w).1.val) (by simpa using ((b.rng arith).below t.length w).1.isLt) fun i x hi => ?_
      simp only [Event.happens, Event.after]
      by_cases h : ((b.rng arith).below t.length w).1.val = i
      · simp [h]
      · simp [h, Ne.symm h])
    (fun a w => ∃ w', jinjaChoice (b.rng arith) (c :: t) w = .ok a w')
    (by rintro w c c' ⟨w1, e1⟩ ⟨w2, e2⟩; rw [e1] at e2; exact (Res.ok.inj e2).1)
    (by
      intro y hy w hw
      obtain ⟨i, hi, rfl⟩ := List.mem_mapIdx.1 hy
      simp only [Event.happens, Event.after] at hw
      by_cases h : ((b.rng arith).below t.length w).1.val = i
      · refine ⟨((b.rng arith).below t.length w).2, ?_⟩
        simp only [jinjaChoice, Rng.choice, List.getD_eq_getElem?_getD, h, List.getElem?_eq_getElem hi, Option.getD_some]
      · simp [h] at hw) a
  have h0 : ((((c :: t).mapIdx fun i x => ([Condition.below t.length i], x)).filter fun y => y.2 = a).map fun y => Event.units y.1).sum = 0 :=
    List.sum_eq_zero fun x hx => by
      obtain ⟨y, hy, rfl⟩ := List.mem_map.1 hx
      obtain ⟨i, hi, rfl⟩ := List.mem_mapIdx.1 (List.mem_filter.1 hy).1
      rfl
  rw [h0, Nat.cast_zero, zero_mul] at h
  rw [sub_eq_zero.1 (abs_nonpos_iff.1 h)]
  have e : (((c :: t).mapIdx fun i x => ([Condition.below t.length i], x)).map fun y => (y.2, Event.chance y.1)) =
      (c :: t).map fun x => (x, 1 / ((t.length + 1 : Nat) : Rat)) := by
    apply List.ext_getElem?
    intro i
    simp only [List.getElem?_map, List.getElem?_mapIdx, Option.map_map, Function.comp_def, Event.chance, Condition.chance,
      List.map_singleton, List.prod_singleton]
  rw [e]
  have key : ∀ l : List α, ∀ q : Rat, Distr.of (l.map fun b => (b, q)) a = l.count a * q := by
    intro l q
    induction l with
    | nil => simp [Distr.of]
    | cons c l ih =>
      simp only [Distr.of, List.map_cons, List.filter_cons, List.count_cons] at ih ⊢
      by_cases h : c = a
      · simp only [h, decide_true, if_true, List.map_cons, List.sum_cons, ih, beq_self_eq_true]
        push_cast
        ring
      · simp [h, ih]
  rw [key]
  simp only [List.length_cons]
  push_cast
  ring

/-- **C105.**  With fair bits, Jinja's `weighted_choice` returns an item in proportion to its weight, up to `1 / 2 ^ 53` for
each time it is listed. -/
theorem bits_weighted_choice_near [DecidableEq α] (b : Bits W) (pr : (W → Prop) → ℝ) (hf : FairBits b pr) (l : List (α × Rat))
    (hw : ∀ p ∈ l, 0 ≤ p.2) (hpos : 0 < (l.map (·.2)).sum) (a : α) :
    |pr (fun w => ∃ w', jinjaWeightedChoice (b.rng .exact) l w = .ok a w') -
      ((((l.filter fun p => p.1 = a).map (·.2)).sum / (l.map (·.2)).sum : Rat) : ℝ)| ≤ (l.map (·.1)).count a * (1 / 2 ^ 53) := by
  have hne : ¬ l.isEmpty = true := by
    intro h
    rw [List.isEmpty_iff.1 h] at hpos
    simp at hpos
  have hw' : ∀ y ∈ l.map (·.2), 0 ≤ y := by
    intro y hy
    obtain ⟨p, hp, rfl⟩ := List.mem_map.1 hy
    exact hw p hp
  have hsucc : ∀ i (hi : i < l.length), ((l.map (·.2)).take (i + 1)).sum = ((l.map (·.2)).take i).sum + l[i].2 := by
    intro i hi
    rw [← List.take_concat_get' _ i (by simpa using hi), List.sum_append]
    simp
  have hle := fun i => sum_take_le hw' i
  have hrun : ∀ w i, (hi : i < l.length) → weightedIndex .exact (accumulate .exact (l.map (·.2))) ((b.rng .exact).unit w).1.val = i →
      ∃ w', jinjaWeightedChoice (b.rng .exact) l w = .ok l[i].1 w' := by
    intro w i hi hidx
    have : Fact ((b.rng .exact).arith = .exact) := ⟨rfl⟩
    refine ⟨((b.rng .exact).unit w).2, ?_⟩
    unfold jinjaWeightedChoice
    rw [if_neg hne]
    have h1 : (b.rng .exact).choicesCum (l.map (·.1)) (accumulate (b.rng .exact).arith (l.map (·.2))) 1 w =
        .ok [l[i].1] ((b.rng .exact).unit w).2 := by
      show (b.rng .exact).choicesCum (l.map (·.1)) (accumulate .exact (l.map (·.2))) (0 + 1) w = _
      rw [choices_succ (by simp) hw' hpos]
      refine (M.bind_of_ok (a := l[i].1) (w' := ((b.rng .exact).unit w).2) ?_).trans ?_
      · rw [hidx, List.getElem?_map, List.getElem?_eq_getElem hi]
        rfl
      · exact M.bind_of_ok (choices_zero (by simp) hpos _)
    exact M.bind_of_ok h1
  have hiff : ∀ w i, (hi : i < l.length) → ((((l.map (·.2)).take i).sum / (l.map (·.2)).sum ≤ ((b.rng .exact).unit w).1.val ∧
      ((b.rng .exact).unit w).1.val < ((l.map (·.2)).take (i + 1)).sum / (l.map (·.2)).sum) ↔
      weightedIndex .exact (accumulate .exact (l.map (·.2))) ((b.rng .exact).unit w).1.val = i) := by
    intro w i hi
    have key := draw_iff _ hw' hpos ((b.rng .exact).unit w).1.val ((b.rng .exact).unit w).1.2.1 ((b.rng .exact).unit w).1.2.2 i (by simpa using hi)
    rw [key, div_le_iff₀ hpos, lt_div_iff₀ hpos, hsucc i hi]
    simp
  let c : Nat → Condition := fun i =>
    .unit (((l.map (·.2)).take i).sum / (l.map (·.2)).sum) (((l.map (·.2)).take (i + 1)).sum / (l.map (·.2)).sum)
  have h := near_results (bits_nearly_fair b .exact pr hf) (l.mapIdx fun i x => ([c i], x.1))
    (by
      intro y hy d hd
      obtain ⟨i, hi, rfl⟩ := List.mem_mapIdx.1 hy
      cases List.mem_singleton.1 hd
      have h0 : 0 ≤ ((l.map (·.2)).take i).sum :=
        List.sum_nonneg (fun y hy => hw' y (List.mem_of_mem_take hy))
      refine ⟨div_nonneg h0 hpos.le, ?_, ?_⟩
      · rw [div_le_div_iff_of_pos_right hpos, hsucc i hi]
        have := hw _ (List.getElem_mem hi)
        linarith
      · rw [div_le_one hpos]; exact hle (i + 1))
    (by
      intro w
      have hlt : weightedIndex .exact (accumulate .exact (l.map (·.2))) ((b.rng .exact).unit w).1.val < l.length := by
        obtain ⟨h, -⟩ := draw_positive .exact _ hw' hpos ((b.rng .exact).unit w).1.val ((b.rng .exact).unit w).1.2.1 ((b.rng .exact).unit w).1.2.2
        simpa using h
      refine countP_mapIdx hlt fun i x hi => ?_
      simp only [Event.happens, Event.after, c, hiff w i hi]
      split
      · rename_i h; simp [h]
      · rename_i h; simp [Ne.symm h])
    (fun a w => ∃ w', jinjaWeightedChoice (b.rng .exact) l w = .ok a w')
    (by rintro w c c' ⟨w1, e1⟩ ⟨w2, e2⟩; rw [e1] at e2; exact (Res.ok.inj e2).1)
    (by
      intro y hy w hw
      obtain ⟨i, hi, rfl⟩ := List.mem_mapIdx.1 hy
      simp only [Event.happens, Event.after, c, hiff w i hi] at hw
      split at hw
      · rename_i h; exact hrun w i hi h
      · simp at hw) a
  have e1 : ((l.mapIdx fun i x => ([c i], x.1)).map fun y => (y.2, Event.chance y.1)) =
      l.map fun x => (x.1, x.2 / (l.map (·.2)).sum) := by
    apply List.ext_getElem?
    intro i
    by_cases hi : i < l.length
    · simp only [List.getElem?_mapIdx, List.getElem?_map, List.getElem?_eq_getElem hi, Option.map_some, Event.chance,
        Condition.chance, c, hsucc i hi, List.map_cons, List.map_nil, List.prod_cons, List.prod_nil]
      congr 2
      ring
    · simp [List.getElem?_eq_none (Nat.le_of_not_lt hi)]
  have e2 : ∀ (m : List (α × Rat)) (q : Rat), Distr.of (m.map fun x => (x.1, x.2 / q)) a =
      ((m.filter fun p => p.1 = a).map (·.2)).sum / q := by
    intro m q
    induction m with
    | nil => simp [Distr.of]
    | cons c m ih =>
      simp only [Distr.of, List.map_cons, List.filter_cons] at ih ⊢
      by_cases h : c.1 = a
      · simp only [h, decide_true, if_true, List.map_cons, List.sum_cons, ih, add_div]
      · simp [h, ih]
  have e3 : ∀ (m : List (α × Rat)) (c : Nat → Condition), (∀ i, Event.units [c i] = 1) →
      (((m.mapIdx fun i x => ([c i], x.1)).filter fun y => y.2 = a).map fun y => Event.units y.1).sum = (m.map (·.1)).count a := by
    intro m c hc
    induction m generalizing c with
    | nil => rfl
    | cons x m ih =>
      have ih := ih (fun i => c (i + 1)) fun i => hc _
      rw [List.mapIdx_cons, List.filter_cons]
      by_cases h : x.1 = a
      · simp only [h, decide_true, if_true, List.map_cons, List.sum_cons, ih, hc, List.count_cons_self]
        omega
      · simp only [h, decide_false, Bool.false_eq_true, if_false, ih, List.map_cons]
        rw [List.count_cons_of_ne h]
  rw [e1, e2, e3 l c fun _ => rfl] at h
  exact h

/-! ### Examples -/

/-- Bits read from a tape. -/
def tapeBits : Bits Tape where
  bits k w := (⟨(tape.below (2 ^ k - 1) w).1.val, by
    have := (tape.below (2 ^ k - 1) w).1.isLt
    have := Nat.two_pow_pos k
    omega⟩, (tape.below (2 ^ k - 1) w).2)

/-- Fair bits exist. -/
theorem fair_bits : ∃ pr, FairBits tapeBits pr := by
  obtain ⟨pr, hf⟩ := fair_tape
  refine ⟨pr, hf.nonneg, hf.add, fun e he => ?_⟩
  have h := hf.event (e.map fun x => .below (2 ^ x.1 - 1) x.2) (by
    intro c hc
    obtain ⟨x, hx, rfl⟩ := List.mem_map.1 hc
    have := he x hx
    exact Nat.le_sub_one_of_lt this)
  have e1 : ∀ w, Event.after tape (e.map fun x => Condition.below (2 ^ x.1 - 1) x.2) w = e.after tapeBits w := by
    clear h he
    induction e with
    | nil => intro w; rfl
    | cons x e ih =>
      intro w
      simp only [List.map_cons, Event.after, BitEvent.after]
      split
      · rw [if_pos (by assumption)]; exact ih _
      · rw [if_neg (by assumption)]
  have e2 : (fun w => Event.happens tape (e.map fun x => Condition.below (2 ^ x.1 - 1) x.2) w = true) = e.happens tapeBits := by
    funext w
    simp only [Event.happens, BitEvent.happens, e1]
  rw [e2] at h
  rw [h, Event.chance, List.map_map]
  push_cast
  rw [← Rat.coe_castHom, List.map_map]
  refine congrArg List.prod (List.map_congr_left fun x _ => ?_)
  simp only [Function.comp, Condition.chance, Nat.sub_add_cancel Nat.one_le_two_pow, Rat.coe_castHom]
  push_cast
  rw [one_div, one_div, inv_pow]

/-- A third is exact, although it is made from bits. -/
example : ∃ pr, FairBits tapeBits pr ∧ pr (fun w => (tapeBits.below 2 w).1.val = 1) = 1 / 3 := by
  obtain ⟨pr, hf⟩ := fair_bits
  refine ⟨pr, hf, ?_⟩
  rw [bits_below_uniform tapeBits pr hf 2 1 (by omega)]
  norm_num

/-- Three values come out in the order 3, 1, 2 with probability 1/6. -/
example : ∃ pr, FairBits tapeBits pr ∧ pr (fun w => ((tapeBits.rng .exact).shuffle [1, 2, 3] w).1 = [3, 1, 2]) = 1 / 6 := by
  obtain ⟨pr, hf⟩ := fair_bits
  refine ⟨pr, hf, ?_⟩
  rw [bits_shuffle_uniform tapeBits .exact pr hf, List.count_eq_one_of_mem (List.nodup_permutations _ (by decide))
    (List.mem_permutations.2 (by decide))]
  norm_num [Nat.factorial]

end Verif.Props
