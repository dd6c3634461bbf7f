import Verif.Proofs.ChancesGen
import Verif.Proofs.Seeds
import Verif.Props.System
import Verif.Spec.Fair
import Verif.Proofs.Fair
import Verif.Props.Listing
/-!
# C70 the chances of random prompts, C71 random prompts are independent
-/

namespace Verif.Props
open Verif Spec
variable {W : Type} {α β : Type}

/-! ## C70 -/

/-- **C70.**  If a prompt has the distribution `P`, the ways the random draws can come out divide into
events, one for each entry of `P` and as likely as the entry says, of which always exactly one happens,
and then random sampling returns the entry's text.  (For weights added and multiplied without rounding.) -/
theorem random_chances (E : Env W) (hA : E.rng.arith = .exact) (vars : List (Str × Cmd)) (being : List Str) (p : Prompt) (P : Distr Str)
    (h : ChancePrompt E vars being p P) :
    ∃ L : List (Event × Str), L.map (fun y => (y.2, Event.chance y.1)) = P ∧
      (∀ y ∈ L, ∀ c ∈ y.1, c.Proper) ∧
      (∀ w, L.countP (fun y => Event.happens E.rng y.1 w) = 1) ∧
      ∀ y ∈ L, ∀ w, Event.happens E.rng y.1 w = true → ∃ N, ∀ fuel ≥ N,
        (samplePrompts E fuel ⟨.random, vars, being⟩ p 1 w).1 = [y.2] := by
  have := Fact.mk hA
  obtain ⟨g, hg, L, h1, h2, h3⟩ := chancePrompt_dis h
  refine ⟨L, h2.1, h1, (h3 ()).one, fun y hy w hw => ?_⟩
  obtain ⟨w', hw'⟩ := Option.isSome_iff_exists.1 hw
  obtain ⟨_, ha, g', rfl⟩ := (h3 ()).run y hy w w' hw'
  obtain ⟨N, hN⟩ := nextG_iff.2 ha
  refine ⟨N, fun n hn => ?_⟩
  simp only [samplePrompts, hg, collect, nextG, hN n hn]

theorem chance_nonneg {e : Event} (h : ∀ c ∈ e, c.Proper) : 0 ≤ Event.chance e := by
  induction e with
  | nil => rw [Event.chance_nil]; norm_num
  | cons c e ih =>
    rw [show c :: e = [c] ++ e from rfl, Event.chance_append, Event.chance_single]
    refine mul_nonneg ?_ (ih fun c hc => h c (by simp [hc]))
    have := h c (by simp)
    cases c with
    | below n k => simp only [Condition.chance]; positivity
    | unit a b =>
      simp only [Condition.Proper] at this
      simp only [Condition.chance]
      linarith [this.2.1]

/-- **C70.**  The chances of a prompt are not negative and add up to one. -/
theorem chances_total (E : Env W) (hA : E.rng.arith = .exact) (vars : List (Str × Cmd)) (being : List Str) (p : Prompt) (P : Distr Str)
    (h : ChancePrompt E vars being p P) : (∀ x ∈ P, 0 ≤ x.2) ∧ total P = 1 := by
  have := Fact.mk hA
  obtain ⟨g, hg, L, h1, h2, h3⟩ := chancePrompt_dis h
  refine ⟨?_, h2.2⟩
  rw [← h2.1]
  intro x hx
  obtain ⟨y, hy, rfl⟩ := List.mem_map.1 hx
  exact chance_nonneg (h1 y hy)

/-- Asked for as many prompts as `ss` has, random sampling in the state `w` returns `ss`. -/
def Samples (E : Env W) (vars : List (Str × Cmd)) (being : List Str) (p : Prompt) (ss : List Str) (w : W) :
    Prop := ∃ N, ∀ fuel ≥ N, (samplePrompts E fuel ⟨.random, vars, being⟩ p ss.length w).1 = ss

theorem fair_empty {r : Rng W} {pr : (W → Prop) → ℝ} (h : Fair r pr) : pr (fun _ => False) = 0 := by
  have := h.add (fun _ => False) (fun _ => False) (fun _ h _ => h)
  simp only [or_self] at this
  linarith

theorem fair_union {r : Rng W} {pr : (W → Prop) → ℝ} (h : Fair r pr) (L : List (Event × β))
    (hp : ∀ y ∈ L, ∀ c ∈ y.1, c.Proper) (h1 : ∀ w, L.countP (fun y => Event.happens r y.1 w) ≤ 1) :
    pr (fun w => ∃ y ∈ L, Event.happens r y.1 w = true) = ((L.map fun y => Event.chance y.1).sum : Rat) := by
  induction L with
  | nil => simpa using fair_empty h
  | cons y L ih =>
    have h2 : ∀ w, L.countP (fun y => Event.happens r y.1 w) ≤ 1 := by
      intro w
      have := h1 w
      rw [List.countP_cons] at this
      omega
    have e : (fun w => ∃ z ∈ y :: L, Event.happens r z.1 w = true) = fun w =>
        Event.happens r y.1 w = true ∨ ∃ z ∈ L, Event.happens r z.1 w = true := by
      funext w
      simp
    rw [e, h.add, h.event y.1 (hp y (by simp)), ih (fun z hz => hp z (by simp [hz])) h2]
    · simp
    · rintro w hw ⟨z, hz, hzw⟩
      have := h1 w
      rw [List.countP_cons, if_pos hw] at this
      have : 0 < L.countP (fun y => Event.happens r y.1 w) := List.countP_pos_iff.2 ⟨z, hz, hzw⟩
      omega

/-- Events that divide all outcomes, each giving one result, determine the probability of a result. -/
theorem fair_results {r : Rng W} {pr : (W → Prop) → ℝ} (h : Fair r pr) [DecidableEq β] (L : List (Event × β))
    (hp : ∀ y ∈ L, ∀ c ∈ y.1, c.Proper) (h1 : ∀ w, L.countP (fun y => Event.happens r y.1 w) = 1)
    (A : β → W → Prop) (huniq : ∀ w b b', A b w → A b' w → b = b')
    (hA : ∀ y ∈ L, ∀ w, Event.happens r y.1 w = true → A y.2 w) (b : β) :
    pr (A b) = (Distr.of (L.map fun y => (y.2, Event.chance y.1)) b : Rat) := by
  have e : A b = fun w => ∃ y ∈ L.filter (fun y => y.2 = b), Event.happens r y.1 w = true := by
    funext w
    apply propext
    constructor
    · intro hb
      have : 0 < L.countP (fun y => Event.happens r y.1 w) := by rw [h1]; omega
      obtain ⟨y, hy, hyw⟩ := List.countP_pos_iff.1 this
      refine ⟨y, List.mem_filter.2 ⟨hy, ?_⟩, hyw⟩
      simpa using huniq w _ _ (hA y hy w hyw) hb
    · rintro ⟨y, hy, hyw⟩
      obtain ⟨hy, hyb⟩ := List.mem_filter.1 hy
      have : y.2 = b := by simpa using hyb
      rw [← this]
      exact hA y hy w hyw
  rw [e, fair_union h]
  · congr 1
    unfold Distr.of
    rw [List.filter_map, List.map_map]
    rfl
  · exact fun y hy => hp y (List.mem_filter.1 hy).1
  · intro w
    rw [← h1 w]
    exact List.Sublist.countP_le List.filter_sublist

theorem samples_unique {E : Env W} {vars : List (Str × Cmd)} {being : List Str} {p : Prompt} {ss ss' : List Str}
    {w : W} (h : Samples E vars being p ss w) (h' : Samples E vars being p ss' w)
    (hl : ss.length = ss'.length) : ss = ss' := by
  obtain ⟨N, hN⟩ := h
  obtain ⟨N', hN'⟩ := h'
  rw [← hN (max N N') (by omega), ← hN' (max N N') (by omega), hl]

/-- **C70**, in terms of probabilities: with a fair source of random numbers, the probability that random
sampling returns `s` is the chance of `s`. -/
theorem prompt_probability (E : Env W) (hA : E.rng.arith = .exact) (vars : List (Str × Cmd)) (being : List Str) (p : Prompt) (P : Distr Str)
    (h : ChancePrompt E vars being p P) (pr : (W → Prop) → ℝ) (hf : Fair E.rng pr) (s : Str) :
    pr (Samples E vars being p [s]) = (P.of s : Rat) := by
  obtain ⟨L, h1, h2, h3, h4⟩ := random_chances E hA vars being p P h
  rw [fair_results hf L h2 h3 (fun s => Samples E vars being p [s])
    (fun w b b' hb hb' => by simpa using samples_unique hb hb' rfl) h4 s, h1]

/-- **C70.**  A prompt has one distribution, as far as the chance of each text goes. -/
theorem chances_unique (E : Env W) (hA : E.rng.arith = .exact) (vars : List (Str × Cmd)) (being : List Str) (p : Prompt) (P P' : Distr Str)
    (h : ChancePrompt E vars being p P) (h' : ChancePrompt E vars being p P')
    (hf : ∃ pr, Fair E.rng pr) (s : Str) : P.of s = P'.of s := by
  obtain ⟨pr, hf⟩ := hf
  have e1 := prompt_probability E hA vars being p P h pr hf s
  have e2 := prompt_probability E hA vars being p P' h' pr hf s
  rw [e1] at e2
  exact_mod_cast e2

/-! ### Choices and wildcards -/

/-- **C70.**  A choice among texts returns each in proportion to its weight. -/
theorem choice_of_texts (E : Env W) (vars : List (Str × Cmd)) (being : List Str) (l : List (Str × Rat))
    (sep : Str) (hl : 2 ≤ l.length) (hnn : ∀ x ∈ l, 0 ≤ x.2) (hpos : ∃ x ∈ l, 0 < x.2) :
    Chance E vars being (.variant (l.map fun x => (.lit x.1 none, x.2)) 1 1 sep none)
      (l.map fun x => (x.1, x.2 / (l.map (·.2)).sum)) := by
  have hall : ∀ l : List (Str × Rat), ChanceAll E vars being ((l.map fun x => (Cmd.lit x.1 none, x.2)).map (·.1))
      (l.map fun x => Distr.sure x.1) := by
    intro l
    induction l with
    | nil => exact .nil
    | cons a l ih => exact .cons (.cmd (by simp [Cmd.method]) .lit) ih
  have hv := ChanceIn.variant (opts := l.map fun x => (Cmd.lit x.1 none, x.2)) (lo := 1) (hi := 1) (sep := sep)
    (m := none) (by simpa using hl) (by decide) (by
      intro p hp
      obtain ⟨x, hx, rfl⟩ := List.mem_map.1 hp
      exact hnn x hx) (by
      rw [total_map (fun s : Str => Cmd.lit s none)]
      exact total_pos hnn hpos) (fun h => absurd h (by decide)) (hall l)
  refine .cmd (by simp [Cmd.method]) ?_
  have hz : (l.map fun x => Distr.sure x.1).zip ((l.map fun x => (Cmd.lit x.1 none, x.2)).map (·.2)) =
      l.map fun x => (Distr.sure x.1, x.2) := by
    rw [List.map_map, List.zip_map']
    rfl
  have he : variantDist ((l.map fun x => Distr.sure x.1).zip
      ((l.map fun x => (Cmd.lit x.1 none, x.2)).map (·.2))) 1 1 sep =
      l.map fun x => (x.1, x.2 / (l.map (·.2)).sum) := by
    rw [hz]
    unfold variantDist
    rw [List.length_map]
    have hc : counts l.length 1 1 = Distr.sure 1 := by
      unfold counts
      have h1 : (max 0 (min (min (1 : Int) 1) l.length)).toNat = 1 := by omega
      have h2 : (max 0 (min (max (1 : Int) 1) l.length)).toNat = 1 := by omega
      rw [h1, h2]
      simp [Distr.sure]
    rw [hc, Distr.sure_bind, pickings_map (fun s : Str => Distr.sure s), Distr.map_bind]
    have hall1 : ∀ ss : List Str, Distr.all (ss.map fun s => Distr.sure s) = Distr.sure ss := by
      intro ss
      induction ss with
      | nil => rfl
      | cons a ss ih => simp only [List.map_cons, Distr.all, ih, Distr.sure_bind]; simp [Distr.map, Distr.sure]
    have hs := splits_map_fst l
    simp only [hall1]
    rw [Distr.bind_sure _ fun a => a, Distr.map_id]
    unfold pickings
    simp only [pickings, Distr.sure, Distr.map, List.map_flatMap, List.map_cons, List.map_nil, mul_one, total]
    have e : ∀ (f : (Str × Rat) → Str × Rat), ((splits l).flatMap fun x => [f x.1]) = l.map f := by
      intro f
      conv_rhs => rw [← hs]
      rw [List.map_map]
      exact List.flatMap_pure_eq_map (fun x : (Str × Rat) × List (Str × Rat) => f x.1) (splits l)
    rw [e fun x => (joined sep [x.1], x.2 / (l.map (·.2)).sum)]
    simp [joined_single]
  rw [← he]
  exact hv

/-! ## C71 -/

/-- `k` prompts of a generator. -/
noncomputable def promptsOf (E : Env W) : Nat → Gen → M W (List Str)
  | 0, _ => pure []
  | k + 1, g => do
    let (v, g') ← (lim E).next! g
    let vs ← promptsOf E k g'
    return v :: vs

theorem collect_of_promptsOf {E : Env W} {k : Nat} {g : Gen} {w w' : W} {ss : List Str}
    (h : promptsOf E k g w = .ok ss w') :
    ss.length = k ∧ ∃ N, ∀ fuel ≥ N, (collect E fuel k g w).1 = ss := by
  induction k generalizing g w ss with
  | zero => cases h; exact ⟨rfl, 0, fun _ _ => rfl⟩
  | succ k ih =>
    obtain ⟨p, w1, h1, h2⟩ := M.bind_ok.1 h
    obtain ⟨vs, w2, h3, h4⟩ := M.bind_ok.1 h2
    cases h4
    obtain ⟨o, w3, h5, h6⟩ := M.bind_ok.1 h1
    cases o with
    | none => cases h6
    | some q =>
      cases h6
      obtain ⟨hl, N, hN⟩ := ih h3
      obtain ⟨N', hN'⟩ := nextG_iff.2 h5
      refine ⟨by simp [hl], max N N', fun n hn => ?_⟩
      simp only [collect, nextG, hN' n (by omega)]
      rw [hN n (by omega)]

theorem dis_prompts {E : Env W} {g : Gen} {P : Distr Str} (hg : GDis E g P) (hst : Like E Eq g g) (k : Nat) :
    Dis E.rng (fun h : {h : Gen // Like E Eq g h} => promptsOf E k h.1) (fun a b => a = b)
      (Distr.all (List.replicate k P)) := by
  have hone : Dis E.rng (fun h : {h : Gen // Like E Eq g h} => (lim E).next! h.1)
      (fun a s => a.1 = s ∧ Like E Eq g a.2) P := by
    obtain ⟨L, h1, h2, h3⟩ := hg
    refine ⟨L, h1, h2, fun h => ⟨(h3 ()).one, fun y hy w w' hw => ?_⟩⟩
    obtain ⟨_, ha, g', rfl⟩ := (h3 ()).run y hy w w' hw
    have ho := out_of_next ha
    have := h.2.sim w w rfl
    rw [ho] at this
    have hnext : ∃ k', (lim E).G h.1 w = .ok (some (y.2, k')) w' := by
      revert this
      cases ho : out E h.1 w with
      | ok a w1 =>
        rintro ⟨rfl, rfl⟩
        exact next_of_out ho
      | err e w1 => intro h; cases h
      | fuel => intro h; cases h
    obtain ⟨k', hk'⟩ := hnext
    refine ⟨(y.2, k'), ?_, rfl, h.2.next rfl hk'⟩
    show M.bind _ _ w = _
    simp only [M.bind, hk']
    rfl
  induction k with
  | zero => exact Dis.pure fun _ => rfl
  | succ k ih =>
    refine Dis.bind (f := fun _ a => (promptsOf E k a.2 >>= fun vs => Pure.pure (a.1 :: vs))) hone fun s hs => ?_
    have ih' := ih.reindex fun p : {p : {h : Gen // Like E Eq g h} × (Str × Gen) //
      p.2.1 = s ∧ Like E Eq g p.2.2} => (⟨p.1.2.2, p.2.2⟩ : {h : Gen // Like E Eq g h})
    refine Dis.map (h := fun (p : {p : {h : Gen // Like E Eq g h} × (Str × Gen) //
      p.2.1 = s ∧ Like E Eq g p.2.2}) vs => p.1.2.1 :: vs) ih' ?_
    rintro ⟨p, h1, h2⟩ a b _ rfl
    simp only [h1]

theorem of_map_cons (P : Distr (List Str)) (a s : Str) (ss : List Str) :
    (P.map (a :: ·)).of (s :: ss) = if a = s then P.of ss else 0 := by
  unfold Distr.of Distr.map
  rw [List.filter_map]
  by_cases h : a = s
  · subst h
    simp [Function.comp_def]
  · simp [Function.comp_def, h]

theorem of_bind [DecidableEq β] (P : Distr α) (Q : α → Distr β) (b : β) :
    (P.bind Q).of b = (List.map (fun x => x.2 * (Q x.1).of b) P).sum := by
  induction P with
  | nil => rfl
  | cons x P ih =>
    have : Distr.bind (x :: P) Q = List.map (fun y => (y.1, x.2 * y.2)) (Q x.1) ++ Distr.bind P Q := rfl
    rw [this]
    unfold Distr.of at ih ⊢
    rw [List.filter_append, List.map_append, List.sum_append, ih, List.map_cons, List.sum_cons]
    congr 1
    rw [List.filter_map, List.map_map]
    exact sum_mul_left' _ _ _

/-- The chance of a list of independent outcomes is the product of their chances. -/
theorem of_all (P : Distr Str) (ss : List Str) :
    (Distr.all (List.replicate ss.length P)).of ss = (ss.map P.of).prod := by
  induction ss with
  | nil => simp [Distr.all, Distr.sure, Distr.of]
  | cons s ss ih =>
    rw [List.length_cons, List.replicate_succ, Distr.all, of_bind, List.map_cons, List.prod_cons]
    simp only [of_map_cons, ih]
    unfold Distr.of
    generalize (List.map (fun s => (List.map (fun x => x.2) (List.filter (fun x => x.1 = s) P)).sum) ss).prod = c
    clear ih
    induction P with
    | nil => simp
    | cons x P ih =>
      rw [List.map_cons, List.sum_cons, ih]
      by_cases h : x.1 = s
      · simp [h]; ring
      · simp [h]

/-- **C71.**  If the template keeps nothing between prompts (see `Memoryless`), several random prompts are
independent: the outcomes of the draws divide into events, one for each list of prompts, whose chance is
the product of the chances of the single prompts. -/
theorem random_independent [Inhabited W] (E : Env W) (hA : E.rng.arith = .exact) (values : Str → Except Err (List Item))
    (hv : ∀ wc w, E.getValues wc w = match values wc with
      | .ok items => .ok items w
      | .error e => .err e w)
    (vars : List (Str × Cmd)) (being : List Str) (p : Prompt) (c : Cmd)
    (hp : p = .inr c ∨ ∃ t, p = .inl t ∧ E.parse t = .ok c) (hm : Memoryless E values vars c)
    (P : Distr Str) (h : ChancePrompt E vars being p P) (k : Nat) :
    ∃ L : List (Event × List Str),
      L.map (fun y => (y.2, Event.chance y.1)) = Distr.all (List.replicate k P) ∧
      (∀ y ∈ L, ∀ c ∈ y.1, c.Proper) ∧
      (∀ w, L.countP (fun y => Event.happens E.rng y.1 w) = 1) ∧
      ∀ y ∈ L, ∀ w, Event.happens E.rng y.1 w = true → y.2.length = k ∧ Samples E vars being p y.2 w := by
  have H : SeededWorld E (fun _ _ => default) values Eq := {
    symm := fun _ _ h => h.symm
    trans := fun _ _ _ h h' => h.trans h'
    draws := ⟨rfl, by rintro n w _ rfl; exact ⟨rfl, rfl⟩, by rintro w _ rfl; exact ⟨rfl, rfl⟩⟩
    answers := by intro wc items w h _; refine ⟨w, ?_, rfl⟩; rw [hv, h]
    fails := by intro wc e w h _; refine ⟨w, ?_, rfl⟩; rw [hv, h]
    reseeds := fun _ _ _ _ _ => rfl }
  have := Fact.mk hA
  obtain ⟨g, hg, hd⟩ := chancePrompt_dis h
  have hst : Steady E Eq g := by
    refine mkGen_vars_nil H hm rfl rfl ?_ ?_ hg
    · rintro t rfl
      rcases hp with hp | ⟨t', hp, hpt⟩
      · cases hp
      · cases hp; exact hpt
    · rintro c' rfl
      rcases hp with hp | ⟨t', hp, hpt⟩
      · cases hp; rfl
      · cases hp
  obtain ⟨L, h1, h2, h3⟩ := dis_prompts hd hst k
  refine ⟨L, h2.1, h1, (h3 ⟨g, hst⟩).one, fun y hy w hw => ?_⟩
  obtain ⟨w', hw'⟩ := Option.isSome_iff_exists.1 hw
  obtain ⟨_, ha, rfl⟩ := (h3 ⟨g, hst⟩).run y hy w w' hw'
  obtain ⟨hl, N, hN⟩ := collect_of_promptsOf ha
  refine ⟨hl, N, fun n hn => ?_⟩
  simp only [samplePrompts, hg]
  rw [hl]
  exact hN n hn

/-- **C71**, in terms of probabilities: with a fair source of random numbers, the probability that the
prompts are `ss` is the product of the chances of its members. -/
theorem prompts_probability [Inhabited W] (E : Env W) (hA : E.rng.arith = .exact) (values : Str → Except Err (List Item))
    (hv : ∀ wc w, E.getValues wc w = match values wc with
      | .ok items => .ok items w
      | .error e => .err e w)
    (vars : List (Str × Cmd)) (being : List Str) (p : Prompt) (c : Cmd)
    (hp : p = .inr c ∨ ∃ t, p = .inl t ∧ E.parse t = .ok c) (hm : Memoryless E values vars c)
    (P : Distr Str) (h : ChancePrompt E vars being p P)
    (pr : (W → Prop) → ℝ) (hf : Fair E.rng pr) (ss : List Str) :
    pr (Samples E vars being p ss) = ((ss.map P.of).prod : Rat) := by
  obtain ⟨L, h1, h2, h3, h4⟩ := random_independent E hA values hv vars being p c hp hm P h ss.length
  have := fair_results hf L h2 h3 (fun ss' w => ss'.length = ss.length ∧ Samples E vars being p ss' w)
    (fun w b b' hb hb' => samples_unique hb.2 hb'.2 (hb.1.trans hb'.1.symm)) h4 ss
  simp only [true_and] at this
  rw [this, h1, of_all]

/-! ### From text and files -/

variable {R S : Type}

/-- **C70.**  From text and files to chances: let anything have happened to the manager before its cache was
cleared, and since then no file changed and nothing was shuffled.  If the template, with the files' values for
its wildcards, has the distribution `P`, random sampling of its text has the distribution `P`. -/
theorem random_chances_files (c : SysCfg R S) (hA : c.rng.arith = .exact) (M : Marks) (al : Char → Bool)
    (hM : M.usable al = true) (hc : c.parser = .of M al)
    (past : Sys R S) (ops : List (SysOp R S)) (hoff : past.mgr.shuffle = false) (hq : ∀ op ∈ ops, Quiet op) :
    let s := runSys c ops { past with mgr := Mgr.clearCache past.mgr }
    ∀ shelf, OnShelf c.mgr s.mgr.fs s.mgr.sort s.mgr.dedup shelf →
    ∀ (ps : List Piece), Spec.ok .top ps M = true → '\t' ∉ source ps M → source ps M ≠ [] →
    ∀ (vars : List (Str × Cmd)) (being : List Str) (P : Distr Str),
      Chance (withShelf c shelf) vars being (meaning ps) P →
      ∃ L : List (Event × Str),
        L.map (fun y => (y.2, Event.chance y.1)) = P.map (fun s => if c.ignoreWs then squashWhitespace s else s) ∧
        (∀ y ∈ L, ∀ c ∈ y.1, c.Proper) ∧
        (∀ r, L.countP (fun y => Event.happens c.rng y.1 r) = 1) ∧
        ∀ y ∈ L, Event.happens c.rng y.1 s.rand = true → ∃ N, ∀ fuel ≥ N,
          (samplePrompts (system c) fuel ⟨.random, vars, being⟩ (.inl (source ps M)) 1 s).1 = [y.2] := by
  intro s shelf hs ps hok ht hne vars being P h
  have hp : (withShelf c shelf).parse (source ps M) = .ok (meaning ps) := by
    show parse c.parser (source ps M) = _
    rw [hc]
    exact parse_source_marks M al hM ps hok ht
  obtain ⟨L, h1, h2, h3, h4⟩ := random_chances (withShelf c shelf) hA vars being _ _ (.text hne hp h)
  refine ⟨L, h1, h2, h3, fun y hy hw => ?_⟩
  obtain ⟨N, hN⟩ := h4 y hy s.rand hw
  refine ⟨N, fun fuel hf => ?_⟩
  have := (files_decide_prompts c past ops hoff hq shelf hs fuel ⟨.random, vars, being⟩ (.inl (source ps M)) 1).1
  exact this.trans (hN fuel hf)

/-! ### Examples -/

/-- Fair sources exist. -/
example : ∃ pr, Fair tape pr := fair_tape

/-- An environment with a fair source. -/
def fairEnv : Env Tape where
  rng := tape
  parse s := .ok (.lit s none)
  ignoreWs := false
  unknown := none
  toWildcard s := c!"__" ++ s ++ c!"__"
  getValues s := pure (if s = c!"colors" then [⟨c!"red", none⟩, ⟨c!"blue", some 3⟩] else [])

/-- `{3::a|b}`: three to one. -/
example : Chance fairEnv [] [] (.variant [(.lit c!"a" none, 3), (.lit c!"b" none, 1)] 1 1 c!"," none)
    [(c!"a", 3 / 4), (c!"b", 1 / 4)] := by
  have h := choice_of_texts fairEnv [] [] [(c!"a", 3), (c!"b", 1)] c!"," (by simp) (by decide +kernel)
    (by decide +kernel)
  rw [show ([(c!"a", 3 / 4), (c!"b", 1 / 4)] : Distr Str) = List.map (fun x => (x.1, x.2 /
    (List.map (fun x : Str × Rat => x.2) [(c!"a", 3), (c!"b", 1)]).sum)) [(c!"a", 3), (c!"b", 1)] by decide +kernel]
  exact h

/-- `{3::a|b}` sampled three times by a fair source: `a`, `b`, `a` comes with probability 9/64. -/
example : ∃ pr, Fair tape pr ∧ pr (Samples fairEnv [] []
    (.inr (.variant [(.lit c!"a" none, 3), (.lit c!"b" none, 1)] 1 1 c!"," none)) [c!"a", c!"b", c!"a"]) = 9 / 64 := by
  obtain ⟨pr, hf⟩ := fair_tape
  have : Inhabited Tape := ⟨fun _ => ⟨0, by decide +kernel⟩⟩
  refine ⟨pr, hf, ?_⟩
  have h := choice_of_texts fairEnv [] [] [(c!"a", 3), (c!"b", 1)] c!"," (by simp) (by decide +kernel)
    (by decide +kernel)
  have := prompts_probability fairEnv rfl
    (fun s => .ok (if s = c!"colors" then [⟨c!"red", none⟩, ⟨c!"blue", some 3⟩] else [])) (fun _ _ => rfl) [] [] _ _
    (.inl rfl) (.choice (by simp) (by simp)) _ (.cmd rfl h) pr hf [c!"a", c!"b", c!"a"]
  refine this.trans ?_
  rw [show (List.map (Distr.of _) [c!"a", c!"b", c!"a"]).prod = (9 / 64 : Rat) by decide +kernel]
  norm_num

/-- `{1-2$$-$$2::a|2::b|c}`: one or two options, without replacement. -/
example : ∃ P, Chance fairEnv [] [] (.variant [(.lit c!"a" none, 2), (.lit c!"b" none, 2), (.lit c!"c" none, 1)]
    1 2 c!"-" none) P ∧ P.of c!"a" = 1 / 5 ∧ P.of c!"a-b" = 2 / 15 ∧ P.of c!"c-a" = 1 / 20 ∧ P.of c!"a-a" = 0 := by
  refine ⟨_, .cmd (by simp [Cmd.method]) (.variant (Ds := [Distr.sure c!"a", Distr.sure c!"b", Distr.sure c!"c"])
    (by simp) (by decide) (by decide +kernel) (by decide +kernel) (fun _ => ⟨by decide +kernel,
      by decide +kernel, ?_⟩) (.cons (.cmd (by simp [Cmd.method]) .lit) (.cons (.cmd (by simp [Cmd.method]) .lit)
      (.cons (.cmd (by simp [Cmd.method]) .lit) .nil)))), ?_⟩
  · intro a b c h _
    have := h.eq_of_length rfl
    simp only [List.map_cons, List.map_nil, List.cons.injEq, and_true] at this
    obtain ⟨rfl, rfl, rfl⟩ := this
    rfl
  · decide +kernel

/-- A wildcard with a weighted value in an immediately evaluated variable that is used twice:
`${x=!__colors__}${x}${x}`. -/
example : ChancePrompt fairEnv [] [] (.inr (.seq [.assign c!"x" (.wild (.inl c!"colors") none []) true true,
    .access c!"x" none, .access c!"x" none] [] none)) [(c!"redred", 1 / 4), (c!"blueblue", 3 / 4)] := by
  have text : ∀ (t : Str) (vars : List (Str × Cmd)) (being : List Str), t ≠ [] →
      ChancePrompt fairEnv vars being (.inl t) ((Distr.sure t).map fun s => s) :=
    fun t vars being ht => .text (P := Distr.sure t) ht rfl (.cmd (by simp [Cmd.method]) .lit)
  have items : ∀ x ∈ ([⟨c!"red", none⟩, ⟨c!"blue", some 3⟩] : List Item), x.content ≠ [] := by decide +kernel
  have wild := ChanceIn.wild (E := fairEnv) (vars := []) (being := []) (path := .inl c!"colors") (m := none) (v := [])
    (items := fun _ => [⟨c!"red", none⟩, ⟨c!"blue", some 3⟩])
    (P := fun i => (Distr.sure i.content).map fun s => s) (text c!"colors" [] [] (by simp))
    (by
      intro x hx w
      simp only [Distr.sure, Distr.map, List.map_cons, List.map_nil, List.mem_singleton] at hx
      subst hx
      rfl)
    (by intro _ _; decide +kernel) (by intro _ _; decide +kernel) (fun _ _ i hi => text _ _ _ (items i hi))
  have pair : ∀ s : Str, ChanceAll fairEnv ([(c!"x", .lit s none)] ++ []) [] [.access c!"x" none, .access c!"x" none]
      [Distr.sure s, Distr.sure s] := by
    intro s
    have one : Chance fairEnv ([(c!"x", .lit s none)] ++ []) [] (.access c!"x" none) (Distr.sure s) :=
      .access (.var (c := .lit s none) rfl rfl) (by simp) (.cmd (by simp [Cmd.method]) .lit)
    exact .cons one (.cons one .nil)
  have all := ChancePrompt.cmd (E := fairEnv) (vars := []) (being := []) (c := .seq [.assign c!"x"
    (.wild (.inl c!"colors") none []) true true, .access c!"x" none, .access c!"x" none] [] none) rfl
    (.cmd (by simp [Cmd.method]) (.seq (Ds := fun new => match new with
      | [(_, .lit s _)] => [Distr.sure s, Distr.sure s]
      | _ => []) (.immediate (.inl rfl) (by simp) (.cmd (by simp [Cmd.method]) wild)
        (.tok (by simp) (.tok (by simp) .nil))) (by
      intro x hx
      obtain ⟨y, hy, hx⟩ := List.mem_flatMap.1 hx
      simp only [Distr.sure, Distr.map, List.map_cons, List.map_nil, List.mem_singleton, List.nil_append] at hx
      subst hx
      exact pair y.1)))
  have cast : ∀ {P Q : Distr Str} {p : Prompt}, ChancePrompt fairEnv [] [] p P → P = Q →
      ChancePrompt fairEnv [] [] p Q := fun h e => e ▸ h
  exact cast all (by decide +kernel)

end Verif.Props
