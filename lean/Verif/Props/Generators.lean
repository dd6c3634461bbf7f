import Verif.Proofs.Generators
import Verif.Proofs.Choose
import Verif.Props.Seeds
import Verif.Props.Choice
import Mathlib.Data.Nat.Factorial.Basic
import Mathlib.Tactic.Linarith
import Mathlib.Algebra.Order.Field.Rat
/-!
# Properties of the generators that wrap others

C41 batches, C42 Jinja, C46 attention, C47 feeling lucky.
-/

namespace Verif.Props
open Spec
variable {W : Type}

/-! ## C41 Batched generation concatenates batches -/

/-- **C41** With `b` batches the result is the concatenation of `b` consecutive results of the inner
generator for the same template and limit. -/
theorem batched_concatenates (inner : PGen W) (b : Int) (template : Str) (max : Int) (w w' : W)
    (ps : List Str) :
    batchedGenerate inner b template max w = .ok ps w' ↔
      ∃ rs, Consecutive (inner template max) b.toNat w rs w' ∧ ps = rs.flatten :=
  batchLoop_ok

/-- **C41** It raises exactly if one of the batches raises, and then the same exception, in the same
world. -/
theorem batched_raises (inner : PGen W) (b : Int) (template : Str) (max : Int) (w w' : W) (e : Err) :
    batchedGenerate inner b template max w = .err e w' ↔
      ∃ k rs w1, k < b.toNat ∧ Consecutive (inner template max) k w rs w1 ∧
        inner template max w1 = .err e w' :=
  batchLoop_err

/-- **C41** For an inner generator that always gives the same result, the result is repeated `b`
times. -/
theorem batched_repeats (inner : PGen W) (b : Int) (template : Str) (max : Int) (r : List Str)
    (h : ∀ w, ∃ w', inner template max w = .ok r w') (w : W) :
    ∃ w', batchedGenerate inner b template max w = .ok (List.replicate b.toNat r).flatten w' := by
  have : ∀ k w, ∃ w', Consecutive (inner template max) k w (List.replicate k r) w' := by
    intro k
    induction k with
    | zero => intro w; exact ⟨w, .zero⟩
    | succ k ih =>
      intro w
      obtain ⟨w1, h1⟩ := h w
      obtain ⟨w2, h2⟩ := ih w1
      exact ⟨w2, .succ h1 h2⟩
  obtain ⟨w', h'⟩ := this b.toNat w
  exact ⟨w', (batched_concatenates inner b template max w w' _).2 ⟨_, h', rfl⟩⟩

/-- **C41** With no batch (zero or a negative number) nothing is generated. -/
theorem batched_none (inner : PGen W) (b : Int) (hb : b ≤ 0) (template : Str) (max : Int) (w : W) :
    batchedGenerate inner b template max w = .ok [] w := by
  have : b.toNat = 0 := by omega
  unfold batchedGenerate
  rw [this]
  rfl

/-- Non-vacuity: an inner generator that counts its runs. -/
example : batchedGenerate (fun t n w => .ok (List.replicate n.toNat (t ++ [Char.ofNat (48 + w)])) (w + 1))
    3 c!"p" 2 (0 : Nat) = .ok [c!"p0", c!"p0", c!"p1", c!"p1", c!"p2", c!"p2"] 3 := by decide +kernel

example (w : W) : ∃ w', (dummyGenerate (W := W)) c!"p" 2 w = .ok [c!"p", c!"p"] w' := ⟨w, rfl⟩

/-! ## C42 Jinja -/

/-- **C42** The template is rendered `num` times.  If any rendering met a prompt block, the values of
all blocks are returned in the order they were rendered; otherwise the rendered texts.  With
`limit_prompts` only the first `num` of them; with `ignore_whitespace` each is squashed. -/
theorem jinja_result (render : Render W) (limit ws : Bool) (num : Int) (w w' : W) (ps : List Str) :
    jinjaGenerate (some render) limit ws num w = .ok ps w' ↔
      ∃ (texts : List Str) (blocks : List (List Str)),
        Consecutive render num.toNat w (texts.zip blocks) w' ∧ texts.length = blocks.length ∧
        ∃ found : List Str,
          ((∃ b ∈ blocks, b ≠ []) → found = blocks.flatten) ∧
          ((∀ b ∈ blocks, b = []) → found = texts) ∧
          ps = (found.take (if limit then num.toNat else found.length)).map
            (fun p => if ws then squashWhitespace p else p) := by
  have hshape : ∀ (rs : List (Str × List Str)),
      (if limit = true then
          (if (rs.flatMap (·.2)).isEmpty = true then rs.map (·.1) else rs.flatMap (·.2)).take num.toNat
        else (if (rs.flatMap (·.2)).isEmpty = true then rs.map (·.1) else rs.flatMap (·.2))) =
      (if (rs.flatMap (·.2)).isEmpty = true then rs.map (·.1) else rs.flatMap (·.2)).take
        (if limit then num.toNat else
          (if (rs.flatMap (·.2)).isEmpty = true then rs.map (·.1) else rs.flatMap (·.2)).length) := by
    intro rs
    cases limit <;> simp
  have hws : ∀ l : List Str, (if ws = true then l.map squashWhitespace else l) =
      l.map (fun p => if ws then squashWhitespace p else p) := by
    intro l
    cases ws <;> simp
  have hblocks : ∀ (rs : List (Str × List Str)),
      (rs.flatMap (·.2)).isEmpty = true ↔ ∀ b ∈ rs.map (·.2), b = [] := by
    intro rs
    rw [List.isEmpty_iff, List.flatMap_eq_nil_iff]
    simp only [List.mem_map]
    exact ⟨fun h b ⟨x, hx, e⟩ => e ▸ h x hx, fun h x hx => h _ ⟨x, hx, rfl⟩⟩
  unfold jinjaGenerate
  rw [M.bind_ok]
  constructor
  · rintro ⟨x, w1, h1, h2⟩
    obtain ⟨rs, h3, rfl⟩ := renderLoop_ok.1 h1
    simp only [M.pure_ok_iff] at h2
    obtain ⟨rfl, rfl⟩ := h2
    refine ⟨rs.map (·.1), rs.map (·.2), ?_, by simp,
      if (rs.flatMap (·.2)).isEmpty = true then rs.map (·.1) else rs.flatMap (·.2), ?_, ?_, ?_⟩
    · rw [zip_fst_snd]; exact h3
    · rintro ⟨b, hb, hne⟩
      rw [if_neg (fun h => hne ((hblocks rs).1 h b hb)), List.flatMap_def]
    · intro h
      rw [if_pos ((hblocks rs).2 h)]
    · rw [hshape, hws]
  · rintro ⟨texts, blocks, h3, hlen, found, hf1, hf2, rfl⟩
    refine ⟨_, _, renderLoop_ok.2 ⟨_, h3, rfl⟩, ?_⟩
    simp only [M.pure_ok_iff, and_true]
    rw [hshape, hws]
    have e1 : (texts.zip blocks).map (·.1) = texts := List.map_fst_zip (by omega)
    have e2 : (texts.zip blocks).map (·.2) = blocks := List.map_snd_zip (by omega)
    have e3 : (texts.zip blocks).flatMap (·.2) = blocks.flatten := by rw [List.flatMap_def, e2]
    have : (if ((texts.zip blocks).flatMap (·.2)).isEmpty = true then (texts.zip blocks).map (·.1)
        else (texts.zip blocks).flatMap (·.2)) = found := by
      by_cases hall : ∀ b ∈ blocks, b = []
      · rw [if_pos ((hblocks _).2 (by rw [e2]; exact hall)), e1, hf2 hall]
      · have hall' : ∃ b ∈ blocks, b ≠ [] := by
          simpa using hall
        rw [if_neg (fun h => hall (by have := (hblocks _).1 h; rwa [e2] at this)), e3, hf1 hall']
    rw [this]

/-- **C42** With a limit there are never more than `num` prompts; without prompt blocks there are
exactly `num` of them. -/
theorem jinja_count (render : Render W) (limit ws : Bool) (num : Int) (w w' : W) (ps : List Str)
    (h : jinjaGenerate (some render) limit ws num w = .ok ps w') :
    (limit = true → ps.length ≤ num.toNat) ∧
    ((∀ w t bs w1, render w = .ok (t, bs) w1 → bs = []) → ps.length = num.toNat) := by
  obtain ⟨texts, blocks, h1, hlen, found, h2, h3, rfl⟩ := (jinja_result render limit ws num w w' ps).1 h
  constructor
  · rintro rfl
    simp
  · intro hno
    have hb : ∀ b ∈ blocks, b = [] := by
      intro b hb
      have : b ∈ (texts.zip blocks).map (·.2) := by rw [List.map_snd_zip (by omega)]; exact hb
      obtain ⟨⟨t, b'⟩, hm, rfl⟩ := List.mem_map.1 this
      obtain ⟨x, y, hx⟩ := consecutive_mem h1 _ hm
      exact hno _ _ _ _ hx
    rw [h3 hb]
    have := Consecutive.length h1
    have hz : (texts.zip blocks).length = texts.length := by simp [hlen]
    have ht : texts.length = num.toNat := by omega
    cases limit <;> simp [ht]

/-- **C42** A syntax error becomes a GeneratorException; an exception while rendering is passed on. -/
theorem jinja_raises (limit ws : Bool) (num : Int) (w w' : W) (e : Err) :
    jinjaGenerate none limit ws num w = .err .generator w ∧
    ∀ render : Render W, (jinjaGenerate (some render) limit ws num w = .err e w' ↔
      ∃ k rs w1, k < num.toNat ∧ Consecutive render k w rs w1 ∧ render w1 = .err e w') := by
  refine ⟨rfl, fun render => ?_⟩
  rw [← renderLoop_err]
  simp only [jinjaGenerate]
  rw [M.bind_eq]
  cases h : renderLoop render num.toNat w with
  | ok a w1 => simp
  | err e1 w1 => simp
  | fuel => simp

/-- Non-vacuity: two blocks in each of two renderings, limited to two; and no block at all. -/
example : jinjaGenerate (some fun w => .ok (c!"text", [c!"a  b", [Char.ofNat (48 + w)]]) (w + 1))
    true true 2 (0 : Nat) = .ok [c!"a b", c!"0"] 2 := by decide +kernel
example : jinjaGenerate (some fun w => .ok (c!"text", [c!"a  b", [Char.ofNat (48 + w)]]) (w + 1))
    false false 2 (0 : Nat) = .ok [c!"a  b", c!"0", c!"a  b", c!"1"] 2 := by decide +kernel
example : jinjaGenerate (some fun w => .ok (c!"x  y", []) (w + 1))
    true false 2 (0 : Nat) = .ok [c!"x  y", c!"x  y"] 2 := by decide +kernel

/-- **C42** `permutations(items, low, high)` lists, for all sizes from `low` to `high`, exactly the
selections of that many items at different positions, in every order; the smaller ones first and
those of one size lexicographically by position; nothing twice (by position). -/
theorem permutations_exact {α : Type} (items : List α) (low : Int) (high : Option Int) (hl : 0 ≤ low) :
    ∃ positions : List (List Nat),
      (∃ l, permutation items low high = .ok l ∧ List.Forall₂ (SelectedAt items) positions l) ∧
      (∀ p, p ∈ positions ↔ p.Nodup ∧ (∀ i ∈ p, i < items.length) ∧
        low ≤ p.length ∧ p.length ≤ high.getD low) ∧
      positions.Pairwise ShortLexLt := by
  refine ⟨(boundRange low (high.getD low)).flatMap fun k => permPos k items.length,
    ⟨(boundRange low (high.getD low)).flatMap fun k => permsOf k items, ?_, ?_⟩, ?_, ?_⟩
  · unfold permutation
    rw [if_neg (by omega)]
  · exact forall₂_flatMap fun k _ => forall₂_perms k items
  · intro p
    simp only [List.mem_flatMap, boundRange, List.mem_map, List.mem_range]
    constructor
    · rintro ⟨k, ⟨a, ha, rfl⟩, hp⟩
      obtain ⟨h1, h2⟩ := permPos_nodup p hp
      exact ⟨h1, permPos_lt p hp, by omega, by omega⟩
    · rintro ⟨h1, h2, h3, h4⟩
      exact ⟨p.length, ⟨p.length - low.toNat, by omega, by omega⟩, permPos_complete h1 rfl h2⟩
  · rw [List.pairwise_flatMap]
    refine ⟨fun k _ => ?_, ?_⟩
    · refine (permPos_sorted k items.length).imp_of_mem fun ha hb h => .inr ⟨?_, h⟩
      rw [(permPos_nodup _ ha).2, (permPos_nodup _ hb).2]
    · unfold boundRange
      rw [List.pairwise_map]
      refine List.pairwise_lt_range.imp fun hab x hx y hy => .inl ?_
      rw [(permPos_nodup _ hx).2, (permPos_nodup _ hy).2]
      omega

/-- **C42** The number of permutations of one size `k` out of `n` items is `n (n-1) … (n-k+1)`. -/
theorem permutations_count {α : Type} (items : List α) (k : Nat) :
    ∃ l, permutation items k none = .ok l ∧ l.length = items.length.descFactorial k := by
  refine ⟨permsOf k items, ?_, ?_⟩
  · unfold permutation
    rw [if_neg (by omega)]
    have : boundRange (k : Int) ((none : Option Int).getD k) = [k] := by
      simp only [boundRange, Option.getD_none]
      rw [show ((k : Int) + 1 - k).toNat = 1 by omega]
      simp
    rw [this]; simp
  · have := (forall₂_perms k items).length_eq
    rw [← this]
    exact permPos_length k items.length

/-- **C42** A negative size is a ValueError; no size at all (`low` above `high`) gives nothing. -/
theorem permutations_edges {α : Type} (items : List α) (low high : Int) :
    (low < 0 → low ≤ high → permutation items low (some high) = .error .value) ∧
    (high < low → permutation items low (some high) = .ok []) := by
  constructor
  · intro h1 h2
    unfold permutation
    rw [if_pos ⟨h2, h1⟩]
  · intro h
    unfold permutation
    rw [if_neg (by simp; omega)]
    have : ((high + 1 - low).toNat) = 0 := by omega
    simp [boundRange, this]

example : permutation [c!"a", c!"b", c!"c"] 1 (some 2) = .ok [[c!"a"], [c!"b"], [c!"c"],
    [c!"a", c!"b"], [c!"a", c!"c"], [c!"b", c!"a"], [c!"b", c!"c"], [c!"c", c!"a"], [c!"c", c!"b"]] := by
  decide +kernel

/-- **C42** `weighted_choice` returns only items of positive weight. -/
theorem jinja_weighted_choice {α : Type} (rng : Rng W) (items : List (α × Rat))
    (hw : ∀ p ∈ items, 0 ≤ p.2) (hpos : 0 < (items.map (·.2)).sum) (w : W) :
    ∃ a w', jinjaWeightedChoice rng items w = .ok a w' ∧ ∃ q, (a, q) ∈ items ∧ 0 < q := by
  have hne : items.isEmpty = false := by cases items <;> simp at hpos ⊢
  obtain ⟨vs, w', h1, h2, h3⟩ := choices_positive rng (items.map (·.1)) (items.map (·.2)) (by simp)
    (by simpa using fun b a h => hw (a, b) h) hpos 1 w
  match vs, h2 with
  | [v], _ =>
    refine ⟨v, w', ?_, ?_⟩
    · unfold jinjaWeightedChoice
      rw [hne]
      simp only [Bool.false_eq_true, if_false]
      rw [M.bind_of_ok h1]
      rfl
    · obtain ⟨i, hi, h4, h5⟩ := h3 v (by simp)
      have hi' : i < items.length := by simpa using hi
      refine ⟨items[i].2, ?_, by simpa using h5⟩
      have : items[i].1 = v := by simpa [hi'] using h4
      rw [← this]
      exact List.getElem_mem hi'

/-- **C42** `wildcard(name)` gives the first 1000 prompts of combinatorial sampling of the wildcard with
this name, `combinatorial_sample(prompt)` those of the prompt; both raise what the sampling raises. -/
theorem jinja_combinatorial (E : Env W) (fuel : Nat) (name prompt : Str) (hn : E.toWildcard name ≠ [])
    (hp : prompt ≠ []) (w w' : W) (ps : List Str) (e : Err) :
    (jinjaWildcard E fuel name w = .ok ps w' ↔
      Finished (samplePrompts E fuel ⟨.comb, [], []⟩ (.inl (E.toWildcard name)) 1000 w) ps w') ∧
    (jinjaWildcard E fuel name w = .err e w' ↔
      (samplePrompts E fuel ⟨.comb, [], []⟩ (.inl (E.toWildcard name)) 1000 w).2 = .raised e w') ∧
    (jinjaAllCombinations E fuel prompt w = .ok ps w' ↔
      Finished (samplePrompts E fuel ⟨.comb, [], []⟩ (.inl prompt) 1000 w) ps w') ∧
    (jinjaAllCombinations E fuel prompt w = .err e w' ↔
      (samplePrompts E fuel ⟨.comb, [], []⟩ (.inl prompt) 1000 w).2 = .raised e w') := by
  have h1 := generate_unseeded E fuel (fun _ w => w) (E.toWildcard name) 1000 hn w w' ps e
  have h2 := generate_unseeded E fuel (fun _ w => w) prompt 1000 hp w w' ps e
  exact ⟨h1.2.2.1, h1.2.2.2, h2.2.2.1, h2.2.2.2⟩

/-- **C42** `random_sample(prompt)` gives the first prompt of random sampling; it raises what the
sampling raises, and StopIteration if the sampling ends without a prompt. -/
theorem jinja_random_sample (E : Env W) (fuel : Nat) (reseed : Int → W → W) (prompt : Str)
    (hp : prompt ≠ []) (w w' : W) (p : Str) (e : Err) :
    (jinjaRandomSample E fuel reseed prompt w = .ok p w' ↔
      Finished (samplePrompts E fuel ⟨.random, [], []⟩ (.inl prompt) 1 w) [p] w') ∧
    (jinjaRandomSample E fuel reseed prompt w = .err e w' ↔
      (samplePrompts E fuel ⟨.random, [], []⟩ (.inl prompt) 1 w).2 = .raised e w' ∨
      (e = .stop ∧ Finished (samplePrompts E fuel ⟨.random, [], []⟩ (.inl prompt) 1 w) [] w')) := by
  have h := fun ps => generate_unseeded E fuel reseed prompt 1 hp w w' ps e
  have hlen : (samplePrompts E fuel ⟨.random, [], []⟩ (.inl prompt) 1 w).1.length ≤ 1 := by
    unfold samplePrompts
    split
    · simp
    · exact collect_le ..
  have hone : ∀ q qs w1, randomGenerate E fuel reseed prompt 1 .none w = .ok (q :: qs) w1 → qs = [] := by
    intro q qs w1 h1
    have := ((generate_unseeded E fuel reseed prompt 1 hp w w1 (q :: qs) e).1.1 h1).1
    rw [this] at hlen
    cases qs with
    | nil => rfl
    | cons => simp at hlen
  unfold jinjaRandomSample
  constructor
  · rw [← (h [p]).1, M.bind_ok]
    constructor
    · rintro ⟨ps, w1, h1, h2⟩
      cases ps with
      | nil => cases h2
      | cons q qs =>
        obtain ⟨rfl, rfl⟩ := M.pure_ok_iff.1 h2
        cases hone _ _ _ h1
        exact h1
    · intro h1
      exact ⟨_, _, h1, rfl⟩
  · rw [← (h []).2.1, ← (h []).1, M.bind_eq]
    have e1 : ((1 : Nat) : Int) = 1 := rfl
    rw [e1]
    cases hr : randomGenerate E fuel reseed prompt 1 .none w with
    | ok ps w1 =>
      cases ps with
      | nil => simp [M.raise, and_comm, eq_comm]
      | cons q qs => simp [M.pure_eq]
    | err e1 w1 => simp
    | fuel => simp

/-- Non-vacuity: a wildcard with two values, the second of weight 2. -/
example : SeedDemo.prompts (jinjaAllCombinations SeedDemo.env 60 c!"W" 0) = [c!"v1", c!"v2", c!"v2"] ∧
    SeedDemo.prompts (jinjaWildcard { SeedDemo.env with toWildcard := fun _ => c!"W" } 60 c!"any" 0) =
      [c!"v1", c!"v2", c!"v2"] ∧
    SeedDemo.prompts ((fun p => [p]) <$> jinjaRandomSample SeedDemo.env 60 SeedDemo.reseed c!"C" <| 0) =
      [c!"a"] := by decide +kernel

/-! ## C46 Attention -/

/-- **C46** Every prompt of the inner generator gives exactly one prompt.  It is unchanged if no
keyword is found; otherwise one of its keywords is chosen, and every occurrence of it (from the left)
is replaced by `(keyword:weight)`. -/
theorem attention_prompts (rng : Rng W) (chunks : Str → List Str) (fmt : Rat → Str) (lo hi : Rat)
    (inner : PGen W) (hk : ∀ p, ∀ k ∈ chunks p, k ≠ []) (template : Str) (num : Int) (w w' : W)
    (out : List Str) (h : attentionGenerate rng chunks fmt lo hi inner template num w = .ok out w') :
    ∃ ps w1, inner template num w = .ok ps w1 ∧
      List.Forall₂ (fun p o => (chunks p = [] ∧ o = p) ∨
        ∃ k ∈ chunks p, ∃ a, Replaced k (c!"(" ++ k ++ c!":" ++ fmt a ++ c!")") p o) ps out := by
  unfold attentionGenerate at h
  obtain ⟨ps, w1, h1, h2⟩ := M.bind_ok.1 h
  refine ⟨ps, w1, h1, mapList_forall₂ h2 fun p o w w' hp => ?_⟩
  rcases addEmphasis_ok hp with h3 | ⟨k, hk1, u, -, -, rfl⟩
  · exact .inl h3
  · exact .inr ⟨k, hk1, round2 u, replaceAll_replaced (hk p k hk1)⟩

/-- **C46** It never fails when the inner generator succeeds. -/
theorem attention_succeeds (rng : Rng W) (chunks : Str → List Str) (fmt : Rat → Str) (lo hi : Rat)
    (inner : PGen W) (template : Str) (num : Int) (w w1 : W) (ps : List Str)
    (h : inner template num w = .ok ps w1) :
    ∃ out w', attentionGenerate rng chunks fmt lo hi inner template num w = .ok out w' := by
  unfold attentionGenerate
  rw [M.bind_of_ok h]
  exact mapList_succeeds fun p w => addEmphasis_succeeds rng chunks fmt lo hi p w

/-- **C46** Replacing is undone by removing the additions: there are parts, without the keyword in
them, such that the prompt is the parts joined by the keyword, and the result the parts joined by the
replacement. -/
theorem attention_reversible (k new p o : Str) (h : Replaced k new p o) (hk : k ≠ []) :
    ∃ parts : List Str, parts ≠ [] ∧ p = joinWith k parts ∧ o = joinWith new parts ∧
      ∀ x ∈ parts, ¬ Occurs k x :=
  replaced_parts h hk

/-- **C46** The weight is the rounded value of a number between the two limits, whichever order they
were given in, so it is off the interval by at most half a hundredth; if both limits are hundredths it
is in the interval. -/
theorem attention_weight (rng : Rng W) (chunks : Str → List Str) (fmt : Rat → Str) (lo hi : Rat)
    (p o : Str) (w w' : W) (h : addEmphasis rng chunks fmt lo hi p w = .ok o w') (hne : chunks p ≠ []) :
    ∃ k ∈ chunks p, ∃ a : Rat, o = replaceAll p k (c!"(" ++ k ++ c!":" ++ fmt a ++ c!")") ∧
      min lo hi - 1 / 200 ≤ a ∧ a ≤ max lo hi + 1 / 200 ∧ (∃ n : Int, a = (n : Rat) / 100) ∧
      ((∃ m : Int, lo = (m : Rat) / 100) → (∃ n : Int, hi = (n : Rat) / 100) →
        min lo hi ≤ a ∧ a ≤ max lo hi) := by
  rcases addEmphasis_ok h with ⟨h3, -⟩ | ⟨k, hk1, u, hu1, hu2, rfl⟩
  · exact absurd h3 hne
  · obtain ⟨n, hn, r1, r2⟩ := round2_spec u
    refine ⟨k, hk1, round2 u, rfl, by linarith, by linarith, ⟨n, hn⟩, ?_⟩
    rintro ⟨a, rfl⟩ ⟨b, rfl⟩
    have key : ∀ c d : Int, (c : Rat) / 100 ≤ u → u ≤ (d : Rat) / 100 →
        (c : Rat) / 100 ≤ round2 u ∧ round2 u ≤ (d : Rat) / 100 := by
      intro c d hc hd
      exact ⟨round2_ge hc, round2_le hd⟩
    rcases le_total ((a : Rat) / 100) ((b : Rat) / 100) with hab | hab
    · rw [min_eq_left hab, max_eq_right hab] at *
      exact key a b hu1 hu2
    · rw [min_eq_right hab, max_eq_left hab] at *
      exact key b a hu1 hu2

/-- Rounding can leave the interval if the limits are finer than hundredths. -/
example : round2 (1104 / 1000) < 1104 / 1000 := by decide +kernel

/-- **C46** The keywords found without the language model are not empty, occur in the prompt, and are
neither numbers nor only punctuation. -/
theorem cheap_keywords (isDigit : Char → Bool) (prompt k : Str) (h : k ∈ cheapChunker isDigit prompt) :
    k ≠ [] ∧ Occurs k prompt ∧ (∃ c ∈ k, isDigit c = false) ∧
      (∃ c ∈ k, c ∉ c!"!\"#$%&'()*+,-./:;<=>?@[\\]^_`{|}~") ∧ ∀ c ∈ k, c ∉ c!",;:.?!()" := by
  obtain ⟨h1, h2, h3⟩ := chunker_mem h
  have hne : k ≠ [] := by rintro rfl; simp [validChunk] at h1
  have hd : ¬ k.all isDigit = true := by
    intro hd
    have : k.isEmpty = false := by cases k <;> simp at hne ⊢
    simp [validChunk, this, hd] at h1
  have hp : ¬ k.all isPunct = true := by
    intro hp
    simp [validChunk, hp] at h1
  have hsep : ∀ c ∈ c!",;:.?!()", isChunkSep c = true := by decide
  have hpunct : ∀ c ∈ c!"!\"#$%&'()*+,-./:;<=>?@[\\]^_`{|}~", isPunct c = true := by decide
  obtain ⟨c, hc, hcp⟩ : ∃ c ∈ k, isPunct c = false := by simpa using hp
  refine ⟨hne, h2, by simpa using hd, ⟨c, hc, fun h => ?_⟩, fun d hd h => ?_⟩
  · rw [hpunct c h] at hcp
    cases hcp
  · have := h3 d hd
    rw [hsep d h] at this
    cases this

/-- **C46** These keywords are exactly the parts of the prompt between the characters `, ; : . ? ! ( )`, without the
white space around them, in order, as far as they are neither empty nor numbers nor only punctuation. -/
theorem cheap_keywords_exact (isDigit : Char → Bool) (fields : List (Str × Char)) (last : Str)
    (hf : ∀ f ∈ fields, (∀ c ∈ f.1, c ∉ c!",;:.?!()") ∧ f.2 ∈ c!",;:.?!()") (hl : ∀ c ∈ last, c ∉ c!",;:.?!()") :
    cheapChunker isDigit (fields.flatMap (fun f => f.1 ++ [f.2]) ++ last) =
      ((fields.map (·.1) ++ [last]).map strip).filter fun k =>
        !k.isEmpty && k.any (fun c => !isDigit c) &&
          k.any fun c => !decide (c ∈ c!"!\"#$%&'()*+,-./:;<=>?@[\\]^_`{|}~") := by
  have hsep : ∀ c, c ∈ c!",;:.?!()" ↔ isChunkSep c = true := by
    intro c
    simp [isChunkSep, or_assoc]
  have hno : ∀ c, c ∉ c!",;:.?!()" → isChunkSep c = false := by
    intro c hc
    rw [hsep] at hc
    simpa using hc
  have hpunct : ∀ c, decide (c ∈ c!"!\"#$%&'()*+,-./:;<=>?@[\\]^_`{|}~") = isPunct c := by
    intro c
    rw [Bool.eq_iff_iff, decide_eq_true_eq]
    constructor
    · intro h
      have : ∀ c ∈ c!"!\"#$%&'()*+,-./:;<=>?@[\\]^_`{|}~", isPunct c = true := by decide
      exact this c h
    · intro h
      have hn : (0x21 ≤ c.toNat ∧ c.toNat ≤ 0x2f) ∨ (0x3a ≤ c.toNat ∧ c.toNat ≤ 0x40) ∨
          (0x5b ≤ c.toNat ∧ c.toNat ≤ 0x60) ∨ (0x7b ≤ c.toNat ∧ c.toNat ≤ 0x7e) := by
        simp only [isPunct, Bool.or_eq_true, Bool.and_eq_true, decide_eq_true_eq] at h
        omega
      have hb : c.toNat < 128 := by omega
      have : ∀ n < 128, ((0x21 ≤ n ∧ n ≤ 0x2f) ∨ (0x3a ≤ n ∧ n ≤ 0x40) ∨ (0x5b ≤ n ∧ n ≤ 0x60) ∨
          (0x7b ≤ n ∧ n ≤ 0x7e)) → Char.ofNat n ∈ c!"!\"#$%&'()*+,-./:;<=>?@[\\]^_`{|}~" := by decide
      have := this c.toNat hb hn
      rwa [Char.ofNat_toNat] at this
  rw [cheapChunker_fields, split_strip]
  have hsplit : splitAt1 isChunkSep (fields.flatMap (fun f => f.1 ++ [f.2]) ++ last) = fields.map (·.1) ++ [last] := by
    induction fields with
    | nil => exact splitAt1_none _ _ fun c hc => hno c (hl c hc)
    | cons f fields ih =>
      have h1 := hf f (by simp)
      rw [List.flatMap_cons, List.append_assoc, List.append_assoc, List.singleton_append,
        splitAt1_sep _ _ _ _ (fun c hc => hno c (h1.1 c hc)) ((hsep _).1 h1.2), ih fun g hg => hf g (by simp [hg])]
      rfl
  rw [hsplit]
  refine List.filter_congr fun k _ => ?_
  unfold validChunk
  simp only [hpunct]
  cases k with
  | nil => rfl
  | cons d k =>
    have e1 : ∀ q : Char → Bool, (d :: k).any (fun c => !q c) = !(d :: k).all q := by
      intro q
      rw [List.not_all_eq_any_not]
    rw [e1, e1]
    cases (d :: k).all isDigit <;> cases (d :: k).all isPunct <;> rfl

example : cheapChunker (fun c => decide ('0' ≤ c ∧ c ≤ '9')) c!" a cat, 12;  (red hat) . !" =
    [c!"a cat", c!"red hat"] := by decide +kernel

/-- Non-vacuity: the keyword occurs twice in the first prompt, and the second has none. -/
example : attentionGenerate (⟨.exact, fun n w => (0, w), fun w => (⟨1 / 2, by decide +kernel, by decide +kernel⟩, w)⟩)
    (cheapChunker (fun _ => false)) (fun q => if q = 1 then c!"1" else c!"?") (12 / 10) (8 / 10)
    (fun _ _ w => .ok [c!"cat, big cat", c!"..."] w) c!"t" 2 (0 : Nat) =
    .ok [c!"(cat:1), big (cat:1)", c!"..."] 0 := by decide +kernel

/-! ## C47 Feeling lucky -/

/-- **C47** Whatever the service answers or raises: once the inner generator has given a query, the
result is exactly the requested number of prompts, all of them prompts of images the service answered
for that query, or a GeneratorException.  A blank query is replaced by a number up to ten million. -/
theorem lucky_outcome (rng : Rng W) (digits : Int → Str) (query : Str → M W (List (Option Str)))
    (inner : PGen W) (search : Str) (num : Int) (w : W) (q : Str) (qs : List Str) (w1 : W)
    (hq : inner search 1 w = .ok (q :: qs) w1) :
    ∃ q' w2, ((strip q ≠ [] ∧ q' = q ∧ w2 = w1) ∨
        (strip q = [] ∧ ∃ n : Int, 0 ≤ n ∧ n ≤ 10000000 ∧ q' = digits n)) ∧
      ((∃ ps w' images w3, luckyGenerate rng digits query inner search num w = .ok ps w' ∧
          query q' w2 = .ok images w3 ∧ ps.length = num.toNat ∧ ∀ p ∈ ps, some p ∈ images) ∨
        (∃ w', luckyGenerate rng digits query inner search num w = .err .generator w') ∨
        (query q' w2 = .fuel ∧ luckyGenerate rng digits query inner search num w = .fuel)) := by
  have main : ∀ q' w2, ∃ x, luckyTry rng query num q' w2 = x ∧
      ((∃ ps w' images w3, x = .ok ps w' ∧ query q' w2 = .ok images w3 ∧ ps.length = num.toNat ∧
          ∀ p ∈ ps, some p ∈ images) ∨ (∃ w', x = .err .generator w') ∨
        (query q' w2 = .fuel ∧ x = .fuel)) := by
    intro q' w2
    refine ⟨_, rfl, ?_⟩
    unfold luckyTry
    rw [M.bind_eq]
    cases hqq : query q' w2 with
    | fuel => simp
    | err e w3 => simp
    | ok images w3 =>
      simp only
      rw [M.bind_eq]
      cases hc : rng.choices images num.toNat w3 with
      | fuel => exact absurd hc (choices_no_fuel _ _ _ _)
      | err e w4 => simp
      | ok sel w4 =>
        simp only
        obtain ⟨c1, c2⟩ := choices_ok hc
        cases hp : promptsOf sel with
        | error e => simp
        | ok ps =>
          left
          have := promptsOf_ok hp
          refine ⟨ps, w4, images, w3, rfl, rfl, ?_, ?_⟩
          · rw [← c1, this]; simp
          · intro p hpp
            exact c2 _ (by rw [this]; exact List.mem_map.2 ⟨p, hpp, rfl⟩)
  unfold luckyGenerate
  rw [M.bind_of_ok hq]
  by_cases hs : strip q = []
  · have hr : ∃ n w2, rng.randint 0 10000000 w1 = .ok n w2 ∧ 0 ≤ n ∧ n ≤ 10000000 := by
      unfold Rng.randint
      rw [if_pos (by decide)]
      exact ⟨_, _, rfl, by omega, by have := (rng.below (10000000 - 0 : Int).toNat w1).1.isLt; omega⟩
    obtain ⟨n, w2, hn, hn1, hn2⟩ := hr
    obtain ⟨x, hx, hx2⟩ := main (digits n) w2
    refine ⟨digits n, w2, .inr ⟨hs, n, hn1, hn2, rfl⟩, ?_⟩
    simp only [if_pos hs]
    have e := (M.bind_of_ok (x := (do let k ← rng.randint 0 10000000; return digits k : M W Str))
      (w := w1) (a := digits n) (w' := w2) (by rw [M.bind_of_ok hn]; rfl)).trans hx
    rw [e]
    exact hx2
  · obtain ⟨x, hx, hx2⟩ := main q w1
    refine ⟨q, w1, .inl ⟨hs, rfl, rfl⟩, ?_⟩
    simp only [if_neg hs]
    have e := (M.bind_of_ok (x := (return q : M W Str)) (w := w1) (a := q) (w' := w1) rfl).trans hx
    rw [e]
    exact hx2

/-- **C47** If the service answers images that all have a prompt, and at least one, it succeeds. -/
theorem lucky_succeeds (rng : Rng W) (digits : Int → Str) (query : Str → M W (List (Option Str)))
    (inner : PGen W) (search : Str) (num : Int) (w : W) (q : Str) (qs : List Str) (w1 w3 : W)
    (hq : inner search 1 w = .ok (q :: qs) w1) (hs : strip q ≠ []) (prompts : List Str)
    (hp : prompts ≠ []) (h : query q w1 = .ok (prompts.map some) w3) :
    ∃ ps w', luckyGenerate rng digits query inner search num w = .ok ps w' := by
  unfold luckyGenerate
  rw [M.bind_of_ok hq]
  simp only [if_neg hs]
  rw [M.bind_of_ok (x := (return q : M W Str)) (a := q) (w' := w1) rfl]
  obtain ⟨sel, w4, hc⟩ := choices_succeeds rng (l := prompts.map some) (by simpa using hp) num.toNat w3
  obtain ⟨c1, c2⟩ := choices_ok hc
  obtain ⟨ps, hps⟩ := promptsOf_succeeds (l := sel) (by
    intro o ho
    obtain ⟨p, -, rfl⟩ := List.mem_map.1 (c2 o ho)
    simp)
  refine ⟨ps, w4, ?_⟩
  unfold luckyTry
  rw [M.bind_of_ok h, M.bind_of_ok hc, hps]
  rfl

/-- **C47** What happens before the service is asked is not caught: an exception of the inner
generator is passed on, and IndexError if it gives no prompt. -/
theorem lucky_before (rng : Rng W) (digits : Int → Str) (query : Str → M W (List (Option Str)))
    (inner : PGen W) (search : Str) (num : Int) (w w1 : W) :
    (inner search 1 w = .ok [] w1 →
      luckyGenerate rng digits query inner search num w = .err .index w1) ∧
    (∀ e, inner search 1 w = .err e w1 →
      luckyGenerate rng digits query inner search num w = .err e w1) := by
  unfold luckyGenerate
  exact ⟨fun h => M.bind_of_ok h, fun e h => M.bind_of_err h⟩

/-- Non-vacuity: three prompts out of two images; an image without prompt; no images. -/
example : luckyGenerate (⟨.exact, fun n w => (0, w), fun w => (⟨1 / 2, by decide +kernel, by decide +kernel⟩, w)⟩)
    (fun _ => c!"7") (fun q w => .ok [some c!"other", some q] w) dummyGenerate c!" " 3 (0 : Nat) =
    .ok [c!"7", c!"7", c!"7"] 0 := by decide +kernel
example : luckyGenerate (⟨.exact, fun n w => (0, w), fun w => (⟨1 / 2, by decide +kernel, by decide +kernel⟩, w)⟩)
    (fun _ => c!"7") (fun _ w => .ok [some c!"other", none] w) dummyGenerate c!"cat" 3 (0 : Nat) =
    .err .generator 0 := by decide +kernel

end Verif.Props
