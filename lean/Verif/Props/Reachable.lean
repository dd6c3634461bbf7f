import Verif.Proofs.Reachable
import Verif.Proofs.Seeds
import Verif.Props.Language
import Verif.Props.Text
import Verif.Spec.Demo
/-!
# C55 random sampling can produce every prompt, C56 weighted wildcard values are drawn in turn
-/

namespace Verif.Props
open Verif Spec

/-! ## C55 -/

/-- **C55.**  Whatever text `Could` derives from a prompt (literals, sequences, choices, wildcards,
variables, wraps), there are outcomes of the random draws with which random sampling returns it. -/
theorem random_reaches (E : Env Draws) (hE : E.rng = drawn) (vars : List (Str × Cmd))
    (being : List Str) (p : Prompt) (s : Str) (h : CouldPrompt E vars being p s) :
    ∃ (outcomes : Draws) (N : Nat), ∀ fuel ≥ N,
      (samplePrompts E fuel ⟨.random, vars, being⟩ p 1 outcomes).1 = [s] := by
  obtain ⟨g, hg, g', pre, hr⟩ := couldPrompt_reach hE h
  obtain ⟨N, hN⟩ := nextG_iff.2 (hr [])
  refine ⟨pre ++ [], N, fun n hn => ?_⟩
  simp only [samplePrompts, hg, collect, nextG, hN n hn]

theorem assigned_none {W : Type} {E : Env W} {vars : List (Str × Cmd)} {toks toks' : List Cmd}
    {new : List (Str × Cmd)} (hA : Assigned E vars toks toks' new)
    (h : ∀ c ∈ toks, ∀ n v i o, c ≠ .assign n v i o) : toks' = toks ∧ new = [] := by
  induction toks generalizing toks' new with
  | nil => cases hA; exact ⟨rfl, rfl⟩
  | cons c toks ih =>
    cases hA with
    | tok _ hA =>
      obtain ⟨rfl, rfl⟩ := ih hA fun c hc => h c (by simp [hc])
      exact ⟨rfl, rfl⟩
    | set _ _ => exact absurd rfl (h _ List.mem_cons_self _ _ _ _)

theorem couldAssign_none {W : Type} {E : Env W} {vars : List (Str × Cmd)} {being : List Str}
    {toks : List Cmd} (h : ∀ c ∈ toks, ∀ n v i o, c ≠ .assign n v i o) :
    CouldAssign E vars being toks toks [] := by
  induction toks with
  | nil => exact .nil
  | cons c toks ih => exact .tok (h c (by simp)) (ih fun c hc => h c (by simp [hc]))

theorem plainRandom_not_dry {W : Type} {E : Env W} {vars : List (Str × Cmd)} {c : Cmd}
    (h : PlainRandom c) : ¬ Dry E vars c := by
  induction h with
  | lit => intro h; cases h
  | seq => intro h; cases h
  | variant hm hne hw hs h0 h1 ih =>
    intro h
    cases h with
    | empty => exact hne rfl
    | single _ hd => exact ih _ (List.mem_singleton.2 rfl) hd
    | wild => cases hs _ (List.mem_singleton.2 rfl)
  | wrap _ _ _ ih1 ih2 =>
    intro h
    cases h with
    | wrapper h => exact ih1 h
    | inner h => exact ih2 h

theorem langAll_could {W : Type} {E : Env W} {vars : List (Str × Cmd)} {being : List Str}
    {cs : List Cmd} {strs : List Str} (hl : LangAll E vars cs strs)
    (h : ∀ c ∈ cs, ∀ s, Lang E vars c s → Could E vars being c s) : CouldAll E vars being cs strs := by
  induction cs generalizing strs with
  | nil => cases hl; exact .nil
  | cons c cs ih =>
    cases hl with
    | cons h1 h2 => exact .cons (h c (by simp) _ h1) (ih h2 fun c hc => h c (by simp [hc]))

theorem lang_could {W : Type} {E : Env W} (hws : E.ignoreWs = false) {c : Cmd} (h : PlainRandom c)
    (vars : List (Str × Cmd)) (being : List Str) (s : Str) (hl : Lang E vars c s) :
    Could E vars being c s := by
  have notWild : ∀ {opts : List (Cmd × Rat)}, (∀ p, p ∈ opts → PlainRandom p.1) → ¬ SingleWild opts := by
    rintro opts hs ⟨p, m, v, w, rfl⟩
    cases hs _ (List.mem_singleton.2 rfl)
  induction h generalizing s with
  | lit hm => cases hl; exact .cmd hm .lit
  | @seq toks m hm hs ih =>
    have hna : ∀ c ∈ toks, ∀ n v i o, c ≠ .assign n v i o := by
      rintro c hc n v i o rfl
      exact absurd (hs _ hc) (by intro h; cases h)
    have key : ∀ {toks' new strs}, Assigned E vars toks toks' new → LangAll E (new ++ vars) toks' strs →
        Could E vars being (.seq toks [] m) (joined [] strs) := by
      intro toks' new strs hA hL
      obtain ⟨rfl, rfl⟩ := assigned_none hA hna
      exact .cmd hm (.seq (couldAssign_none hna) (langAll_could hL fun c hc s h => ih c hc s h))
    cases hl with
    | seq hA hL => exact key hA hL
    | seqPad hA hL =>
      have := key hA hL
      rw [joined_nil_sep] at *
      simpa using this
  | @variant opts lo hi sep m hm hne hw hs h0 h1 ih =>
    have one : ∀ (c : Cmd) (wt : Rat) s, opts = [(c, wt)] → Lang E vars c s →
        Could E vars being (.variant opts lo hi sep m) s := by
      rintro c wt s rfl hc
      exact .cmd hm (.variantSingle (notWild hs) (ih (c, wt) (by simp) s hc))
    cases hl with
    | @variant _ _ _ _ _ _ cs strs _ _ hsub hb hL =>
      have hopt : ∀ c ∈ cs, ∀ s, Lang E vars c s → Could E vars being c s := by
        intro c hc s hl
        obtain ⟨p, hp, rfl⟩ := List.mem_map.1 (hsub.subset hc)
        exact ih p hp s hl
      match opts, hne with
      | [(c, wt)], _ =>
        have h1 := h1 rfl
        have hlen : cs.length = 1 := by
          simp only [InBounds, List.length_singleton] at hb
          omega
        obtain ⟨c', rfl⟩ := List.length_eq_one_iff.1 hlen
        have : c' = c := by simpa using hsub.subset (List.mem_singleton.2 rfl)
        subst this
        cases hL with
        | cons hc hL =>
          cases hL
          rw [joined_single]
          exact one _ _ _ rfl hc
      | a :: b :: l, _ =>
        exact .cmd hm (.variant (by simp) h0 (fun p hp => hw p hp) hsub hb (langAll_could hL hopt))
    | variantSingle _ hc => exact one _ _ _ rfl hc
    | @variantDry _ _ _ _ _ _ pre d post strs _ _ hsub _ _ hd =>
      obtain ⟨p, hp, rfl⟩ := List.mem_map.1 (hsub.subset (show d ∈ pre ++ d :: post by simp))
      exact absurd hd (plainRandom_not_dry (hs p hp))
    | variantWild => cases hs _ (List.mem_singleton.2 rfl)
  | wrap hm _ _ ih1 ih2 =>
    cases hl with
    | wrap h1 h2 h3 h4 =>
      have same : ∀ {a b}, Squashed E a b → b = a := by
        intro a b h
        cases h with
        | same => rfl
        | squash h => rw [hws] at h; cases h
      rw [same h3, same h4]
      exact .cmd hm (.wrap (ih1 _ h1) (ih2 _ h2))

/-- **C55**, exactly: for a template of literals, sequences, choices and wraps with positive weights,
the texts random sampling returns for some outcomes of the random draws are exactly the texts of the
template's language (any permitted number of options, in any order). -/
theorem random_exactly (E : Env Draws) (hE : E.rng = drawn) (hws : E.ignoreWs = false)
    (vars : List (Str × Cmd)) (being : List Str) (c : Cmd) (h : PlainRandom c) (hne : c.truthy = true)
    (s : Str) :
    (∃ (outcomes : Draws) (fuel : Nat),
      (samplePrompts E fuel ⟨.random, vars, being⟩ (.inr c) 1 outcomes).1 = [s]) ↔ Lang E vars c s := by
  constructor
  · rintro ⟨outcomes, fuel, hs⟩
    have := sampling_sound E fuel ⟨.random, vars, being⟩ (.inr c) 1 outcomes s (by rw [hs]; simp)
    generalize hp : (Sum.inr c : Prompt) = p at this
    cases this with
    | text => cases hp
    | cmd _ hl =>
      cases hp
      rw [hws]
      exact hl
  · intro hl
    have : CouldPrompt E vars being (.inr c) s := by
      have h := CouldPrompt.cmd hne (lang_could hws h vars being s hl)
      rw [hws] at h
      exact h
    obtain ⟨outcomes, N, hN⟩ := random_reaches E hE vars being _ s this
    exact ⟨outcomes, N, hN N (Nat.le_refl _)⟩

/-- **C55**, in any sequence: if the template keeps nothing between prompts (see `Memoryless`), every
list of its texts, with repetitions and in any order, is returned for some outcomes of the draws. -/
theorem random_reaches_list (E : Env Draws) (hE : E.rng = drawn)
    (values : Str → Except Err (List Item))
    (hv : ∀ wc w, E.getValues wc w = match values wc with
      | .ok items => .ok items w
      | .error e => .err e w)
    (vars : List (Str × Cmd)) (being : List Str) (c : Cmd) (hm : Memoryless E values vars c)
    (ss : List Str) (h : ∀ s ∈ ss, CouldPrompt E vars being (.inr c) s) :
    ∃ (outcomes : Draws) (N : Nat), ∀ fuel ≥ N,
      (samplePrompts E fuel ⟨.random, vars, being⟩ (.inr c) ss.length outcomes).1 = ss := by
  have H : SeededWorld E (fun _ _ => []) values Eq := {
    symm := fun _ _ h => h.symm
    trans := fun _ _ _ h h' => h.trans h'
    draws := ⟨rfl, by rintro n w _ rfl; exact ⟨rfl, rfl⟩, by rintro w _ rfl; exact ⟨rfl, rfl⟩⟩
    answers := by intro wc items w h _; refine ⟨w, ?_, rfl⟩; rw [hv, h]
    fails := by intro wc e w h _; refine ⟨w, ?_, rfl⟩; rw [hv, h]
    reseeds := fun _ _ _ _ _ => rfl }
  cases ss with
  | nil =>
    refine ⟨[], 0, fun fuel _ => ?_⟩
    unfold samplePrompts
    cases sampleGen E ⟨.random, vars, being⟩ (.inr c) <;> rfl
  | cons s0 ss0 =>
    obtain ⟨g, hg, -⟩ := couldPrompt_reach hE (h s0 (by simp))
    have hst : Steady E Eq g := mkGen_vars_nil H hm rfl rfl (by rintro _ ⟨⟩) (by rintro _ ⟨⟩; rfl) hg
    have hone : ∀ s, ∃ pre : Draws, s ∈ s0 :: ss0 → ∀ rest, out E g (pre ++ rest) = .ok (some s) rest := by
      intro s
      by_cases hs : s ∈ s0 :: ss0
      · obtain ⟨g1, hg1, g', pre, hr⟩ := couldPrompt_reach hE (h s hs)
        rw [hg] at hg1
        cases hg1
        exact ⟨pre, fun _ rest => out_of_next (hr rest)⟩
      · exact ⟨[], fun hs' => absurd hs' hs⟩
    choose pre hpre using hone
    have key : ∀ (l : List Str) (k : Gen), Like E Eq g k → (∀ s ∈ l, s ∈ s0 :: ss0) →
        ∃ N : Nat, ∀ fuel ≥ N, (collect E fuel l.length k (l.flatMap pre)).1 = l := by
      intro l
      induction l with
      | nil => intro k _ _; exact ⟨0, fun _ _ => rfl⟩
      | cons s l ih =>
        intro k hk hl
        have hnext : ∃ k', (lim E).G k (pre s ++ l.flatMap pre) = .ok (some (s, k')) (l.flatMap pre) := by
          have := hk.sim (pre s ++ l.flatMap pre) (pre s ++ l.flatMap pre) rfl
          rw [hpre s (hl s (by simp)) _] at this
          revert this
          cases ho : out E k (pre s ++ l.flatMap pre) with
          | ok a w' =>
            rintro ⟨rfl, rfl⟩
            exact next_of_out ho
          | err e w' => intro h; cases h
          | fuel => intro h; cases h
        obtain ⟨k', hk'⟩ := hnext
        obtain ⟨N, hN⟩ := nextG_iff.2 hk'
        obtain ⟨N', hN'⟩ := ih k' (hk.next rfl hk') fun s hs => hl s (by simp [hs])
        refine ⟨max N N', fun n hn => ?_⟩
        simp only [List.length_cons, List.flatMap_cons, collect, nextG, hN n (by omega)]
        rw [hN' n (by omega)]
    obtain ⟨N, hN⟩ := key (s0 :: ss0) g hst (fun _ h => h)
    refine ⟨(s0 :: ss0).flatMap pre, N, fun n hn => ?_⟩
    simp only [samplePrompts, hg]
    exact hN n hn

/-! ### Cases -/

/-- `{a|2::b} {1-2$$-$$c|d}`. -/
def reachDemo : Cmd := .seq [.variant [(.lit c!"a" none, 1), (.lit c!"b" none, 2)] 1 1 c!"," none,
  .lit c!" " none, .variant [(.lit c!"c" none, 1), (.lit c!"d" none, 1)] 1 2 c!"-" none] [] none

/-- Non-vacuity: the template is of the required form. -/
example : PlainRandom reachDemo := by
  have two : ∀ a b : Str, ∀ x y : Rat, 0 < x → 0 < y → ∀ lo hi sep, 0 ≤ max lo hi →
      PlainRandom (.variant [(.lit a none, x), (.lit b none, y)] lo hi sep none) := by
    intro a b x y hx hy lo hi sep h
    refine .variant (by simp) (by simp) ?_ ?_ h (by simp)
    · intro p hp
      simp only [List.mem_cons, List.not_mem_nil, or_false] at hp
      rcases hp with rfl | rfl <;> assumption
    · intro p hp
      simp only [List.mem_cons, List.not_mem_nil, or_false] at hp
      rcases hp with rfl | rfl <;> exact .lit (by simp)
  refine .seq (by simp) ?_
  intro c hc
  simp only [List.mem_cons, List.not_mem_nil, or_false] at hc
  rcases hc with rfl | rfl | rfl
  · exact two _ _ _ _ (by decide +kernel) (by decide +kernel) _ _ _ (by decide)
  · exact .lit (by simp)
  · exact two _ _ _ _ (by decide +kernel) (by decide +kernel) _ _ _ (by decide)

/-- `Demo.env` with chosen outcomes. -/
def reachEnv : Env Draws where
  rng := drawn
  parse s := .ok (.lit s none)
  ignoreWs := false
  unknown := none
  toWildcard s := c!"__" ++ s ++ c!"__"
  getValues s := pure (if s = c!"colors" then [⟨c!"red", none⟩, ⟨c!"blue", some 3⟩] else [])

/-- Outcomes that give "b d-c". -/
example : (samplePrompts reachEnv 9 ⟨.random, [], []⟩ (.inr reachDemo) 1
    [.below 0, .unit ⟨1/2, by decide +kernel, by decide +kernel⟩, .below 1,
     .unit ⟨1/2, by decide +kernel, by decide +kernel⟩, .unit ⟨0, by decide, by decide⟩]).1 =
    [c!"b d-c"] := by decide +kernel

/-- A wildcard through a variable: `${x=__colors__}${x}` could be "blue". -/
example : CouldPrompt reachEnv [] [] (.inr (.seq [.assign c!"x" (.wild (.inl c!"colors") none []) false
    true, .access c!"x" none] [] none)) c!"blue" := by
  have hp : ∀ vars being, CouldPrompt reachEnv vars being (.inl c!"colors") c!"colors" :=
    fun vars being => .text (by simp) rfl (.cmd (by simp [Cmd.method]) .lit)
  have hb : ∀ vars being, CouldPrompt reachEnv vars being (.inl c!"blue") c!"blue" :=
    fun vars being => .text (by simp) rfl (.cmd (by simp [Cmd.method]) .lit)
  refine CouldPrompt.cmd (E := reachEnv) (s := c!"blue") rfl (.cmd (by simp [Cmd.method]) ?_)
  refine CouldIn.seq (strs := [c!"blue"]) (.plain (.inl rfl) (.tok (by simp) .nil)) (.cons ?_ .nil)
  refine .access (.var (c := .wild (.inl c!"colors") none []) rfl rfl) (by simp)
    (.cmd (by simp [Cmd.method]) ?_)
  refine .wild (item := ⟨c!"blue", some 3⟩) (hp _ _) (items := [⟨c!"red", none⟩, ⟨c!"blue", some 3⟩])
    (fun w => rfl) ?_ (by simp) (by decide +kernel) (hb _ _)
  intro i hi
  simp only [List.mem_cons, List.not_mem_nil, or_false] at hi
  rcases hi with rfl | rfl <;> decide +kernel

/-! ## C56 -/

/-- Which item a number `q` of [0, 1) stands for: the items divide [0, total weight) into consecutive
intervals as long as their weights. -/
def Selects (items : List Item) (q : Rat) (item : Item) : Prop :=
  ∃ i, items[i]? = some item ∧
    ((items.take i).map fun x => x.weight.getD 1).sum ≤ q * (items.map fun x => x.weight.getD 1).sum ∧
    q * (items.map fun x => x.weight.getD 1).sum < ((items.take (i + 1)).map fun x => x.weight.getD 1).sum

/-- A number of [0, 1). -/
abbrev Fraction := {q : Rat // 0 ≤ q ∧ q < 1}

theorem choices_in_turn {items : List Item} (hnn : ∀ i ∈ items, 0 ≤ i.weight.getD 1)
    (hpos : ∃ i ∈ items, 0 < i.weight.getD 1) (qs : List Fraction) (rest : Draws) :
    ∃ vs, List.Forall₂ (fun q v => ∃ item, Selects items q.val item ∧ v = item.content) qs vs ∧
      drawn.choicesCum (items.map Item.content) (cumWeights .exact items) qs.length
        (qs.map Draw.unit ++ rest) = .ok vs rest := by
  have hw : ∀ x ∈ items.map Item.w, 0 ≤ x := by
    intro x hx
    obtain ⟨i, hi, rfl⟩ := List.mem_map.1 hx
    exact hnn i hi
  have hsum : 0 < (items.map Item.w).sum := by
    obtain ⟨i, hi, hi0⟩ := hpos
    have h1 := (List.perm_cons_erase (List.mem_map_of_mem (f := Item.w) hi)).sum_eq
    rw [h1, List.sum_cons]
    have h2 := List.sum_nonneg (l := (items.map Item.w).erase i.w) (fun y hy => hw y (List.mem_of_mem_erase hy))
    have : 0 < i.w := hi0
    linarith
  have hne : items ≠ [] := by rintro rfl; simp at hsum
  have c1 : ¬ (cumWeights .exact items).length ≠ (items.map Item.content).length := by
    unfold cumWeights; rw [accumulate_length]; simp
  have c2 : ¬ (cumWeights .exact items).isEmpty = true := by
    unfold cumWeights
    rw [List.isEmpty_iff, ← List.length_eq_zero_iff, accumulate_length, List.length_eq_zero_iff]
    simpa using hne
  have c3 : ¬ (cumWeights .exact items).getLastD 0 ≤ 0 := by
    unfold cumWeights; rw [accumulate_getLastD]; linarith
  induction qs with
  | nil =>
    refine ⟨[], .nil, ?_⟩
    simp only [Rng.choicesCum, List.length_nil, List.map_nil, List.nil_append]
    rw [if_neg c1, if_neg c2, if_neg c3]
  | cons q qs ih =>
    obtain ⟨vs, h1, h2⟩ := ih
    obtain ⟨hi, -⟩ := draw_positive .exact _ hw hsum q.val q.2.1 q.2.2
    obtain ⟨b1, b2⟩ := (draw_iff _ hw hsum q.val q.2.1 q.2.2 _ hi).1 rfl
    have hi' : weightedIndex .exact (cumWeights .exact items) q.val < items.length := by
      simpa [cumWeights] using hi
    have hget : (items.map Item.content)[weightedIndex .exact (cumWeights .exact items) q.val]? =
        some (items[weightedIndex .exact (cumWeights .exact items) q.val]).content := by
      rw [List.getElem?_map, List.getElem?_eq_getElem hi']; rfl
    refine ⟨_, .cons ⟨items[weightedIndex .exact (cumWeights .exact items) q.val], ⟨_,
      List.getElem?_eq_getElem hi', ?_, ?_⟩, rfl⟩ h1, ?_⟩
    · rw [List.map_take]; exact b1
    · have hsucc : ((items.map Item.w).take (weightedIndex .exact (cumWeights .exact items) q.val + 1)).sum =
          ((items.map Item.w).take (weightedIndex .exact (cumWeights .exact items) q.val)).sum +
            (items.map Item.w)[weightedIndex .exact (cumWeights .exact items) q.val]'(by simpa using hi') := by
        rw [← List.take_concat_get' _ _ (by simpa using hi'), List.sum_append]
        simp
      rw [List.map_take]
      exact lt_of_lt_of_eq b2 hsucc.symm
    · simp only [Rng.choicesCum, List.length_cons, List.map_cons, List.cons_append]
      rw [if_neg c1, if_neg c2, if_neg c3]
      simp only [drawn] at h2 ⊢
      rw [hget]
      dsimp only
      rw [M.bind_of_ok h2]
      rfl

/-- What the generator of a wildcard keeps between prompts: the values drawn in advance. -/
theorem randWild_in_turn (E : Env Draws) (hE : E.rng = drawn) (hws : E.ignoreWs = false) (ctx : Ctx)
    (items : List Item) (hvar : hasVariedWeights items = true)
    (hnn : ∀ i ∈ items, 0 ≤ i.weight.getD 1) (hpos : ∃ i ∈ items, 0 < i.weight.getD 1)
    (hlit : ∀ i ∈ items, i.content ≠ [] ∧ E.parse i.content = .ok (.lit i.content none))
    (m : Nat) (bq : List Fraction) (buf : List Str) (qs : List Fraction) (hd : 10 ∣ qs.length)
    (hm : m ≤ bq.length + qs.length)
    (hbuf : List.Forall₂ (fun q v => ∃ item, Selects items q.val item ∧ v = item.content) bq buf) :
    ∃ vs, List.Forall₂ (fun q v => ∃ item, Selects items q.val item ∧ v = item.content)
        ((bq ++ qs).take m) vs ∧
      ∃ N, ∀ fuel ≥ N, (collect E fuel m (.randWild ctx items buf) (qs.map Draw.unit)).1 = vs := by
  induction m generalizing bq buf qs with
  | zero => exact ⟨[], by simp, 0, fun _ _ => rfl⟩
  | succ m ih =>
    -- a value at the head of the buffer is the next prompt
    have step : ∀ (q : Fraction) (v : Str) (bq : List Fraction) (buf : List Str) (w : Draws)
        (qs : List Fraction) (bufp : List Str), 10 ∣ qs.length → m ≤ bq.length + qs.length →
        (∃ item, Selects items q.val item ∧ v = item.content) →
        List.Forall₂ (fun q v => ∃ item, Selects items q.val item ∧ v = item.content) bq buf →
        weightedNext drawn items bufp w = .ok (v, buf) (qs.map Draw.unit) →
        ∃ vs, List.Forall₂ (fun q v => ∃ item, Selects items q.val item ∧ v = item.content)
            ((q :: bq ++ qs).take (m + 1)) vs ∧
          ∃ N, ∀ fuel ≥ N, (collect E fuel (m + 1) (.randWild ctx items bufp) w).1 = vs := by
      intro q v bq buf w qs bufp hd hm hq hb hn
      obtain ⟨vs, h1, N, h2⟩ := ih bq buf qs hd hm hb
      refine ⟨v :: vs, by simpa using And.intro hq h1, N + 2, fun n hn' => ?_⟩
      obtain ⟨item, ⟨i, hi, -, -⟩, rfl⟩ := hq
      obtain ⟨hc, hp⟩ := hlit item (List.mem_of_getElem? hi)
      have hmk : mkGen E.unknown ctx (.lit item.content none) =
          .ok (.start ⟨ctx.method, ctx.vars, ctx.being⟩ (.lit item.content none)) := by
        rw [mkGen_outcome (.target (by simp))]; rfl
      have hsg : sampleGen E ctx (.inl item.content) =
          .ok (.start ctx (.lit item.content none)) := by
        have hc' : item.content.isEmpty = false := by simpa using hc
        simp [sampleGen, hc, hp, hmk, hws]
      have hnext : nextG E n (.randWild ctx items bufp) w =
          .ok (some (item.content, .randWild ctx items buf)) (qs.map Draw.unit) := by
        obtain ⟨n, rfl⟩ : ∃ k, n = k + 2 := ⟨n - 2, by omega⟩
        show stepG E (recs E (n + 1)) (.randWild ctx items bufp) w = _
        simp only [stepG]
        rw [hE, M.bind_of_ok hn]
        dsimp only
        rw [hsg]
        have : ∃ g, (recs E (n + 1)).G (.start ctx (.lit item.content none)) (qs.map Draw.unit) =
            .ok (some (item.content, g)) (qs.map Draw.unit) := by
          show ∃ g, stepG E (recs E n) (.start ctx (.lit item.content none)) (qs.map Draw.unit) = _
          simp only [stepG]
          cases ctx.method <;> exact ⟨_, rfl⟩
        obtain ⟨g, hg⟩ := this
        show M.bind _ _ _ = _
        simp only [M.bind, M.lift]
        show M.bind _ _ _ = _
        simp only [M.bind, hg]
        rfl
      simp only [collect, hnext]
      rw [h2 n (by omega)]
    cases hbuf with
    | @cons q v bq buf hq hb =>
      refine step q v bq buf _ qs (v :: buf) hd (by simp at hm; omega) hq hb ?_
      unfold weightedNext
      rw [hvar]
      rfl
    | nil =>
      simp only [List.length_nil, Nat.zero_add] at hm
      obtain ⟨d, hd⟩ := hd
      obtain ⟨vs, h1, h2⟩ := choices_in_turn hnn hpos (qs.take 10) ((qs.drop 10).map Draw.unit)
      have hl : (qs.take 10).length = 10 := by simp; omega
      rw [hl, ← List.map_append, List.take_append_drop] at h2
      have hsplit : qs = qs.take 10 ++ qs.drop 10 := (List.take_append_drop 10 qs).symm
      match hqs : qs.take 10, vs, h1, hl with
      | q :: qs', v :: vs, .cons hq h1, hl =>
        have hl : qs'.length = 9 := by simpa using hl
        have := step q v qs' vs (qs.map Draw.unit) (qs.drop 10) [] (by
            simp only [List.length_drop]; exact ⟨d - 1, by omega⟩)
          (by simp only [List.length_drop]; omega) hq h1 (by
            unfold weightedNext
            rw [hvar]
            simp only [Bool.not_true, Bool.false_eq_true, if_false]
            rw [show drawn.arith = Arith.exact from rfl, M.bind_of_ok h2]
            rfl)
        rw [← hqs, ← hsplit] at this
        exact this

/-- Two generators with the same next step have the same prompts. -/
theorem collect_of_same_next {W : Type} {E : Env W} {g g' : Gen} {w w' : W}
    (h : (lim E).G g w = (lim E).G g' w') :
    ∃ N, ∀ fuel ≥ N, ∀ m, (collect E fuel (m + 1) g w).1 = (collect E fuel (m + 1) g' w').1 := by
  obtain ⟨N, hN⟩ := nextG_iff.2 h
  obtain ⟨N', hN'⟩ := nextG_iff.2 (rfl : (lim E).G g' w' = _)
  refine ⟨max N N', fun n hn m => ?_⟩
  simp only [collect, nextG, hN n (by omega), hN' n (by omega)]

theorem wild_first (E : Env Draws) (hws : E.ignoreWs = false) (ctx : Ctx) (hm : ctx.method = .random)
    (name : Str) (hname : name ≠ []) (hparse : E.parse name = .ok (.lit name none))
    (items : List Item) (hne : items ≠ []) (hg : Gives E name items) (w : Draws) :
    (lim E).G (.start ctx (.wild (.inl name) none [])) w = (lim E).G (.randWild ctx items []) w := by
  obtain ⟨m, vars, being⟩ := ctx
  cases hm
  have hmk : mkGen E.unknown ⟨.random, vars, being⟩ (.lit name none) =
      .ok (.start ⟨.random, vars, being⟩ (.lit name none)) := by
    rw [mkGen_outcome (.target (by simp))]; rfl
  have hsg : sampleGen E ⟨.random, vars, being⟩ (.inl name) =
      .ok (.start ⟨.random, vars, being⟩ (.lit name none)) := by
    simp [sampleGen, hname, hparse, hmk, hws]
  have hlitG : (lim E).G (.start ⟨.random, vars, being⟩ (.lit name none)) w =
      .ok (some (name, .rep name)) w := by rw [lim_G]; rfl
  have hfirst : (lim E).sampleFirst E ⟨.random, vars, being⟩ (.inl name) w = .ok name w := by
    unfold Recs.sampleFirst Recs.next!
    rw [hsg]
    show M.bind _ _ _ = _
    simp only [M.bind, M.lift]
    show M.bind (M.bind _ _) _ _ = _
    simp only [M.bind, hlitG]
    rfl
  have hne' : items.isEmpty = false := by simpa using hne
  rw [lim_G]
  show M.bind (M.bind _ _) _ _ = _
  simp only [M.bind, hfirst]
  have hw := hg w
  have hrest : (do
      let values ← E.getValues name
      let ctx' := Ctx.withVars ⟨.random, vars, being⟩ []
      if values.isEmpty then (lim E).fallback E ctx' (.inl name)
      else return Gen.randWild ctx' values [] : M Draws Gen) w =
      .ok (.randWild ⟨.random, vars, being⟩ items []) w := by
    rw [M.bind_of_ok hw]
    simp only [hne', Ctx.withVars, List.nil_append]
    rfl
  dsimp only at hrest
  rw [hrest]

/-- **C56.**  Sampling a wildcard whose values have different weights: prompt `j` is the value that
the `j`-th fraction drawn stands for, each value having a share equal to its weight.  (Fractions are
drawn ten at a time, so the number of fractions provided is a multiple of ten.) -/
theorem weighted_values_in_turn (E : Env Draws) (hE : E.rng = drawn) (hws : E.ignoreWs = false)
    (vars : List (Str × Cmd)) (being : List Str) (name : Str) (hname : name ≠ [])
    (hparse : E.parse name = .ok (.lit name none)) (items : List Item) (hg : Gives E name items)
    (hvar : ∃ i ∈ items, ∃ j ∈ items, i.weight.getD 1 ≠ j.weight.getD 1)
    (hnn : ∀ i ∈ items, 0 ≤ i.weight.getD 1)
    (hlit : ∀ i ∈ items, i.content ≠ [] ∧ E.parse i.content = .ok (.lit i.content none))
    (fractions : List Fraction) (hd : 10 ∣ fractions.length) (m : Nat) (hm : m ≤ fractions.length) :
    ∃ texts, List.Forall₂ (fun q v => ∃ item, Selects items q.val item ∧ v = item.content)
        (fractions.take m) texts ∧
      ∃ N, ∀ fuel ≥ N, (samplePrompts E fuel ⟨.random, vars, being⟩ (.inr (.wild (.inl name) none []))
        m (fractions.map Draw.unit)).1 = texts := by
  have hv : hasVariedWeights items = true := by
    obtain ⟨i, hi, j, hj, hij⟩ := hvar
    cases items with
    | nil => cases hi
    | cons a l =>
      by_contra hc
      have hall : ∀ x ∈ l, x.w = a.w := by
        intro x hx
        by_contra hxa
        refine hc ?_
        simp only [hasVariedWeights, List.any_eq_true]
        exact ⟨x, hx, by simpa using hxa⟩
      have hall' : ∀ x ∈ a :: l, x.w = a.w := by
        intro x hx
        rcases List.mem_cons.1 hx with rfl | hx
        · rfl
        · exact hall x hx
      exact hij ((hall' i hi).trans (hall' j hj).symm)
  have hpos : ∃ i ∈ items, 0 < i.weight.getD 1 := by
    obtain ⟨i, hi, j, hj, hij⟩ := hvar
    have h1 := hnn i hi
    have h2 := hnn j hj
    rcases lt_or_eq_of_le h1 with h | h
    · exact ⟨i, hi, h⟩
    · rcases lt_or_eq_of_le h2 with h' | h'
      · exact ⟨j, hj, h'⟩
      · exact absurd (h.symm.trans h') hij
  have hne : items ≠ [] := by rintro rfl; obtain ⟨i, hi, -⟩ := hvar; cases hi
  obtain ⟨texts, h1, N, h2⟩ := randWild_in_turn E hE hws ⟨.random, vars, being⟩ items hv hnn hpos hlit m
    [] [] fractions hd (by simpa using hm) .nil
  refine ⟨texts, by simpa using h1, ?_⟩
  have hsg : sampleGen E ⟨.random, vars, being⟩ (.inr (.wild (.inl name) none [])) =
      .ok (.start ⟨.random, vars, being⟩ (.wild (.inl name) none [])) := by
    have hmk : mkGen E.unknown ⟨.random, vars, being⟩ (.wild (.inl name) none []) =
        .ok (.start ⟨.random, vars, being⟩ (.wild (.inl name) none [])) := by
      rw [mkGen_outcome (.target (by simp))]; rfl
    simp [sampleGen, hmk, hws, Cmd.truthy]
  simp only [samplePrompts, hsg]
  cases m with
  | zero => exact ⟨N, fun n hn => h2 n hn⟩
  | succ m =>
    obtain ⟨N', hN'⟩ := collect_of_same_next (wild_first E hws ⟨.random, vars, being⟩ rfl name hname hparse
      items hne hg (fractions.map Draw.unit))
    exact ⟨max N N', fun n hn => by rw [hN' n (by omega)]; exact h2 n (by omega)⟩

/-- **C56**, equal weights: prompt `j` is the value with the `j`-th index drawn. -/
theorem equal_values_in_turn (E : Env Draws) (hE : E.rng = drawn) (hws : E.ignoreWs = false)
    (vars : List (Str × Cmd)) (being : List Str) (name : Str) (hname : name ≠ [])
    (hparse : E.parse name = .ok (.lit name none)) (items : List Item) (hg : Gives E name items)
    (heq : ∀ i ∈ items, ∀ j ∈ items, i.weight.getD 1 = j.weight.getD 1)
    (hlit : ∀ i ∈ items, i.content ≠ [] ∧ E.parse i.content = .ok (.lit i.content none))
    (chosen : List (Fin items.length)) :
    ∃ N, ∀ fuel ≥ N, (samplePrompts E fuel ⟨.random, vars, being⟩ (.inr (.wild (.inl name) none []))
      chosen.length (chosen.map fun i => Draw.below i.val)).1 = chosen.map fun i => items[i].content := by
  have hsg : sampleGen E ⟨.random, vars, being⟩ (.inr (.wild (.inl name) none [])) =
      .ok (.start ⟨.random, vars, being⟩ (.wild (.inl name) none [])) := by
    have hmk : mkGen E.unknown ⟨.random, vars, being⟩ (.wild (.inl name) none []) =
        .ok (.start ⟨.random, vars, being⟩ (.wild (.inl name) none [])) := by
      rw [mkGen_outcome (.target (by simp))]; rfl
    simp [sampleGen, hmk, hws, Cmd.truthy]
  simp only [samplePrompts, hsg]
  have hv : hasVariedWeights items = false := by
    cases items with
    | nil => rfl
    | cons a l =>
      simp only [hasVariedWeights, List.any_eq_false]
      intro x hx
      have : x.w = a.w := heq x (by simp [hx]) a (by simp)
      simpa using this
  have step : ∀ (i : Fin items.length) (w : Draws), (lim E).G (.randWild ⟨.random, vars, being⟩ items [])
      (.below i.val :: w) = .ok (some (items[i].content, .randWild ⟨.random, vars, being⟩ items [])) w := by
    intro i w
    have hn : weightedNext drawn items [] (.below i.val :: w) = .ok (items[i].content, []) w := by
      unfold weightedNext
      rw [hv]
      simp only [Bool.not_false, if_true]
      have hch : drawn.choice (items.map Item.content) (.below i.val :: w) = .ok items[i].content w := by
        obtain ⟨i, hi⟩ := i
        cases items with
        | nil => simp at hi
        | cons a l =>
          have hi' : i < (l.map Item.content).length + 1 := by simpa using hi
          simp only [List.map_cons, Rng.choice, drawn, dif_pos hi']
          rw [← List.map_cons, List.getD_eq_getElem?_getD, List.getElem?_map, List.getElem?_eq_getElem hi]
          rfl
      rw [M.bind_of_ok hch]
      rfl
    obtain ⟨hc, hp⟩ := hlit items[i] (List.getElem_mem _)
    have hmk : mkGen E.unknown ⟨.random, vars, being⟩ (.lit items[i].content none) =
        .ok (.start ⟨.random, vars, being⟩ (.lit items[i].content none)) := by
      rw [mkGen_outcome (.target (by simp))]; rfl
    have hsg : sampleGen E ⟨.random, vars, being⟩ (.inl items[i].content) =
        .ok (.start ⟨.random, vars, being⟩ (.lit items[i].content none)) := by
      simp only [sampleGen, hp, hmk, hws]
      rw [if_neg (by simpa using hc)]
      rfl
    rw [lim_G]
    simp only [stepG]
    rw [hE, M.bind_of_ok hn]
    dsimp only
    rw [hsg]
    have hl : (lim E).G (.start ⟨.random, vars, being⟩ (.lit items[i].content none)) w =
        .ok (some (items[i].content, .rep items[i].content)) w := by rw [lim_G]; rfl
    show M.bind _ _ _ = _
    simp only [M.bind, M.lift]
    show M.bind _ _ _ = _
    simp only [M.bind, hl]
    rfl
  have key : ∀ l : List (Fin items.length), ∃ N, ∀ fuel ≥ N, (collect E fuel l.length
      (.randWild ⟨.random, vars, being⟩ items []) (l.map fun i => Draw.below i.val)).1 =
      l.map fun i => items[i].content := by
    intro l
    induction l with
    | nil => exact ⟨0, fun _ _ => rfl⟩
    | cons i l ih =>
      obtain ⟨N, ih⟩ := ih
      obtain ⟨N', hN'⟩ := nextG_iff.2 (step i (l.map fun i => Draw.below i.val))
      refine ⟨max N N', fun n hn => ?_⟩
      simp only [List.length_cons, List.map_cons, collect, nextG, hN' n (by omega)]
      rw [ih n (by omega)]
  cases chosen with
  | nil => exact ⟨0, fun _ _ => rfl⟩
  | cons i l =>
    have hne : items ≠ [] := by rintro rfl; exact i.elim0
    obtain ⟨N, hN⟩ := key (i :: l)
    obtain ⟨N', hN'⟩ := collect_of_same_next (wild_first E hws ⟨.random, vars, being⟩ rfl name hname hparse
      items hne hg ((i :: l).map fun i => Draw.below i.val))
    refine ⟨max N N', fun n hn => ?_⟩
    rw [← hN n (by omega)]
    exact hN' n (by omega) l.length

/-- Non-vacuity: `__colors__` with "blue" three times as likely as "red". -/
example : (samplePrompts reachEnv 9 ⟨.random, [], []⟩ (.inr (.wild (.inl c!"colors") none [])) 3
    ((List.range 10).map fun k => Draw.unit (if k % 2 = 0 then ⟨1/5, by decide +kernel, by decide +kernel⟩
      else ⟨1/4, by decide +kernel, by decide +kernel⟩))).1 = [c!"red", c!"blue", c!"red"] := by
  decide +kernel
example : Selects [⟨c!"red", none⟩, ⟨c!"blue", some 3⟩] (1/4) ⟨c!"blue", some 3⟩ :=
  ⟨1, rfl, by decide +kernel, by decide +kernel⟩

end Verif.Props
