import Verif.Proofs.Endings
import Verif.Proofs.Selections
import Verif.Proofs.Distinct
import Verif.Spec.Demo
/-!
# Combinatorial sampling: C01, C02, C03, C04
-/

namespace Verif.Props
open Verif Spec
variable {W : Type}

/-- **C01** (for commands, whose tokens all have a text).  In a combinatorial context, a template of
literals, sequences, variants and wraps produces exactly the specified list of texts, in order, then
stops, and leaves the world (random generator, caches) untouched; with a limit `k`, the first `k` of
them.  `Plain` demands that every token of a sequence has a text (or carries the combinatorial marker
itself); for all templates see `combinatorial_enumerates`. -/
theorem plain_enumerates (E : Env W) (ctx : Ctx) (hm : ctx.method = .comb) (c : Cmd)
    (hc : Plain E.ignoreWs c) (w : W) :
    let outs := (unlessEmpty c (enum E.ignoreWs c)).map (squashIf E.ignoreWs)
    ∃ N, ∀ fuel ≥ N, ∀ k,
      (samplePrompts E fuel ctx (.inr c) k w).1 = outs.take k ∧
      (outs.length < k → (samplePrompts E fuel ctx (.inr c) k w).2 = .stop w) := by
  obtain ⟨g, hg, hy⟩ := yields_sampleGen_cmd hc hm (yields_plain hc w ctx hm)
  obtain ⟨N, hN⟩ := hy.collect
  refine ⟨N, fun fuel hf k => ?_⟩
  unfold samplePrompts
  rw [hg]
  exact ⟨(hN fuel hf).1 k, (hN fuel hf).2 k⟩

/-- **C01** (for texts): the same for a non-empty text that parses as such a template. -/
theorem plain_text_enumerates (E : Env W) (ctx : Ctx) (hm : ctx.method = .comb)
    (s : Str) (hs : s ≠ []) (c : Cmd) (hp : E.parse s = .ok c) (hc : Plain E.ignoreWs c) (w : W) :
    let outs := (enum E.ignoreWs c).map (squashIf E.ignoreWs)
    ∃ N, ∀ fuel ≥ N, ∀ k,
      (samplePrompts E fuel ctx (.inl s) k w).1 = outs.take k ∧
      (outs.length < k → (samplePrompts E fuel ctx (.inl s) k w).2 = .stop w) := by
  have hy := yields_plain hc w ctx hm
  have hy' : Yields E w (if E.ignoreWs then .squash (.start ctx c) else .start ctx c)
      ((enum E.ignoreWs c).map (squashIf E.ignoreWs)) := by
    by_cases hw : E.ignoreWs = true
    · have : squashIf E.ignoreWs = squashWhitespace := by funext s; simp [squashIf, hw]
      rw [this, if_pos hw]
      exact Yields.squash hy
    · have : squashIf E.ignoreWs = id := by funext s; simp [squashIf, hw]
      rw [this, List.map_id, if_neg hw]
      exact hy
  obtain ⟨N, hN⟩ := hy'.collect
  refine ⟨N, fun fuel hf k => ?_⟩
  have hg : sampleGen E ctx (.inl s) =
      .ok (if E.ignoreWs then .squash (.start ctx c) else .start ctx c) := by
    unfold sampleGen
    simp [hs, hp, mkGen_plain hc hm]
  unfold samplePrompts
  rw [hg]
  exact ⟨(hN fuel hf).1 k, (hN fuel hf).2 k⟩

/-- Non-vacuity: a nested template with a sequence, two variants and a wrap is `Plain`, and its
specified texts. -/
example : Plain false (.seq [.lit c!"a " none, Demo.oneOf [c!"x", c!"y"],
      .wrap (.lit c!"<…>" none) (.variant [(.lit c!"p" none, 1), (.lit c!"q" none, 2)] 2 2 c!"+" none) none]
      [] none) ∧
    enum false (.seq [.lit c!"a " none, Demo.oneOf [c!"x", c!"y"],
      .wrap (.lit c!"<…>" none) (.variant [(.lit c!"p" none, 1), (.lit c!"q" none, 2)] 2 2 c!"+" none) none]
      [] none) =
      [c!"a x<p+q>", c!"a x<q+p>", c!"a y<p+q>", c!"a y<q+p>"] := by
  have l : ∀ s, Plain false (.lit s none) := fun s => .lit (Or.inl rfl)
  have v1 : Plain false (Demo.oneOf [c!"x", c!"y"]) := by
    refine .variant (Or.inl rfl) ?_
    intro o ho
    simp only [List.map_cons, List.map_nil, List.mem_cons, List.not_mem_nil, or_false] at ho
    rcases ho with rfl | rfl <;> exact l _
  have v2 : Plain false (.variant [(.lit c!"p" none, 1), (.lit c!"q" none, 2)] 2 2 c!"+" none) := by
    refine .variant (Or.inl rfl) ?_
    intro o ho
    simp only [List.mem_cons, List.not_mem_nil, or_false] at ho
    rcases ho with rfl | rfl <;> exact l _
  refine ⟨.seq (Or.inl rfl) ?_ ?_, by decide +kernel⟩
  · intro c hc
    simp only [List.mem_cons, List.not_mem_nil, or_false] at hc
    rcases hc with rfl | rfl | rfl
    · exact l _
    · exact v1
    · exact .wrap (Or.inl rfl) (l _) v2
  · intro c hc _
    simp only [List.mem_cons, List.not_mem_nil, or_false] at hc
    rcases hc with rfl | rfl | rfl <;> decide +kernel

/-- **C01** (for commands) for all templates of literals, sequences, variants and wraps without random or
cyclical parts: sampling produces exactly the texts of the run of `Spec/Endings.lean` and then stops, or
fails with RuntimeError, as the run says; the world is untouched. -/
theorem combinatorial_enumerates (E : Env W) (ctx : Ctx) (hm : ctx.method = .comb) (c : Cmd)
    (hc : Basic c) (w : W) :
    let r := unlessEmptyR c (runs E.ignoreWs c)
    ∃ N, ∀ fuel ≥ N, ∀ k,
      (samplePrompts E fuel ctx (.inr c) k w).1 = (r.1.map (squashIf E.ignoreWs)).take k ∧
      (r.1.length < k → (samplePrompts E fuel ctx (.inr c) k w).2 =
        if r.2 then .raised .runtime w else .stop w) := by
  obtain ⟨g, hg, hy⟩ := ye_sampleGen_cmd hc hm (ye_basic hc w ctx hm)
  obtain ⟨N, hN⟩ := hy.collect
  refine ⟨N, fun fuel hf k => ?_⟩
  unfold samplePrompts
  rw [hg]
  exact ⟨(hN fuel hf).1 k, fun h => (hN fuel hf).2 k (by simpa using h)⟩

/-- **C01** (for texts): the same for a non-empty text that parses as such a template. -/
theorem combinatorial_text_enumerates (E : Env W) (ctx : Ctx) (hm : ctx.method = .comb)
    (s : Str) (hs : s ≠ []) (c : Cmd) (hp : E.parse s = .ok c) (hc : Basic c) (w : W) :
    let r := runs E.ignoreWs c
    ∃ N, ∀ fuel ≥ N, ∀ k,
      (samplePrompts E fuel ctx (.inl s) k w).1 = (r.1.map (squashIf E.ignoreWs)).take k ∧
      (r.1.length < k → (samplePrompts E fuel ctx (.inl s) k w).2 =
        if r.2 then .raised .runtime w else .stop w) := by
  have hy := ye_basic (E := E) hc w ctx hm
  have hy' : YE E w (if E.ignoreWs then .squash (.start ctx c) else .start ctx c)
      ((runs E.ignoreWs c).1.map (squashIf E.ignoreWs)) (runs E.ignoreWs c).2 := by
    by_cases hw : E.ignoreWs = true
    · have : squashIf E.ignoreWs = squashWhitespace := by funext s; simp [squashIf, hw]
      rw [this, if_pos hw]
      exact YE.squash hy
    · have : squashIf E.ignoreWs = id := by funext s; simp [squashIf, hw]
      rw [this, List.map_id, if_neg hw]
      exact hy
  obtain ⟨N, hN⟩ := hy'.collect
  refine ⟨N, fun fuel hf k => ?_⟩
  have hg : sampleGen E ctx (.inl s) =
      .ok (if E.ignoreWs then .squash (.start ctx c) else .start ctx c) := by
    unfold sampleGen
    simp [hs, hp, mkGen_basic hc hm]
  unfold samplePrompts
  rw [hg]
  exact ⟨(hN fuel hf).1 k, fun h => (hN fuel hf).2 k (by simpa using h)⟩

/-- **C01** If every token has a text the run is the list `enum` and does not fail. -/
theorem run_is_enum (ws : Bool) (c : Cmd) (h : Plain ws c) : runs ws c = (enum ws c, false) := runs_plain h

/-- Non-vacuity, and the failure: `x{2$$a|a}` has a token without a text (two different options cannot
both be chosen), so it fails at once; `{y|x{2$$a|a}}` produces `y` and then fails. -/
theorem empty_token_fails :
    let bad : Cmd := .seq [.lit c!"x" none, .variant [(.lit c!"a" none, 1), (.lit c!"a" none, 1)] 2 2 c!"," none]
      [] none
    Basic bad ∧ enum false bad = [] ∧ runs false bad = ([], true) ∧
    runs false (.variant [(.lit c!"y" none, 1), (bad, 1)] 1 1 c!"," none) = ([c!"y"], true) ∧
    (let r := samplePrompts Demo.env 20 (Demo.ctx .comb) (.inr bad) 1 0
     (r.1, Demo.errOf r.2)) = ([], some .runtime) := by
  refine ⟨.seq (.inl rfl) ?_, ?_, ?_, ?_, ?_⟩
  · intro c hc
    simp only [List.mem_cons, List.not_mem_nil, or_false] at hc
    rcases hc with rfl | rfl
    · exact .lit (.inl rfl)
    · refine .variant (.inl rfl) ?_
      intro o ho
      simp only [List.mem_cons, List.not_mem_nil, or_false] at ho
      rcases ho with rfl | rfl <;> exact .lit (.inl rfl)
  all_goals decide +kernel

/-- **C02.**  Whatever its options are (random, cyclical, wildcards, ...), a combinatorial variant
produces texts of pairwise different selections: lists `d` of texts without repetition, whose size
respects the bounds.  `n` is the number of options; only if the variant consists of a single
wildcard is it the (unspecified) number of the wildcard's values. -/
theorem combinatorial_variant_distinct (E : Env W) (fuel : Nat) (ctx : Ctx) (hm : ctx.method = .comb)
    (opts : List (Cmd × Rat)) (lo hi : Int) (sep : Str) (m : Option Method) (hf : Finite m) (k : Nat)
    (w : W) :
    ∃ (n : Nat) (ds : List (List Str)), (¬ SingleWild opts → n = opts.length) ∧
      (samplePrompts E fuel ctx (.inr (.variant opts lo hi sep m)) k w).1 =
        ds.map (fun d => squashIf E.ignoreWs (joined sep d)) ∧
      ds.Nodup ∧
      ∀ d ∈ ds, d.Nodup ∧ max 0 (min (min lo hi) n) ≤ (d.length : Int) ∧
        (d.length : Int) ≤ max 0 (min (max lo hi) n) := by
  have he : ctx.withMethod (effMethod ctx.method (Cmd.variant opts lo hi sep m).method) = ctx := by
    show ctx.withMethod (effMethod ctx.method m) = ctx
    rw [hm, effMethod_finite hf, withMethod_comb hm]
  have hg : mkGen E.unknown ctx (.variant opts lo hi sep m) =
      .ok (.start ctx (.variant opts lo hi sep m)) := by
    unfold mkGen chainFuel
    simp [mkGenF, he]
  unfold samplePrompts sampleGen
  by_cases ht : (Cmd.variant opts lo hi sep m).truthy = true
  · simp only [ht, Bool.not_true, Bool.false_eq_true, if_false, hg]
    by_cases hw : E.ignoreWs = true
    · have hsq : ∀ s, squashIf E.ignoreWs s = squashWhitespace s := by intro s; simp [squashIf, hw]
      simp only [hw, if_true, hsq]
      cases fuel with
      | zero =>
        refine ⟨opts.length, [], fun _ => rfl, ?_, by simp, by simp⟩
        cases k <;> rfl
      | succ fuel =>
        obtain ⟨n, hn, ds, h1, h2, h3⟩ := cvStart_collect (E := E) hm fuel k opts lo hi sep m w
        refine ⟨n, ds, hn, ?_, h2, h3⟩
        rw [collect_squash, h1, List.map_map]
        simp [squashIf]
    · have hsq : ∀ s, squashIf E.ignoreWs s = s := by intro s; simp [squashIf, hw]
      obtain ⟨n, hn, ds, h1, h2, h3⟩ := cvStart_collect (E := E) hm fuel k opts lo hi sep m w
      simp only [hw, Bool.false_eq_true, if_false]
      refine ⟨n, ds, hn, ?_, h2, h3⟩
      rw [h1]
      simp [squashIf]
  · simp only [ht, Bool.not_false, if_true]
    refine ⟨opts.length, [], fun _ => rfl, ?_, by simp, by simp⟩
    cases k with
    | zero => rfl
    | succ k => cases fuel <;> rfl

/-- **C02**, pick-one variants: no text is produced twice. -/
theorem combinatorial_pick_one_distinct (E : Env W) (hws : E.ignoreWs = false) (fuel : Nat) (ctx : Ctx)
    (hm : ctx.method = .comb) (opts : List (Cmd × Rat)) (sep : Str) (m : Option Method)
    (hf : Finite m) (k : Nat) (w : W) :
    (samplePrompts E fuel ctx (.inr (.variant opts 1 1 sep m)) k w).1.Nodup := by
  obtain ⟨n, ds, -, h1, h2, h3⟩ :=
    combinatorial_variant_distinct E fuel ctx hm opts 1 1 sep m hf k w
  have hlen : ∀ d ∈ ds, (d = [] ∧ n = 0) ∨ ∃ x, d = [x] ∧ n ≠ 0 := by
    intro d hd
    obtain ⟨-, h4, h5⟩ := h3 d hd
    by_cases hn : n = 0
    · exact .inl ⟨List.length_eq_zero_iff.1 (by omega), hn⟩
    · obtain ⟨x, rfl⟩ := List.length_eq_one_iff.1 (show d.length = 1 by omega)
      exact .inr ⟨x, rfl, hn⟩
  have hj : ds.map (fun d => squashIf E.ignoreWs (joined sep d)) = ds.map (fun d => d.headD []) := by
    apply List.map_congr_left
    intro d hd
    rcases hlen d hd with ⟨rfl, -⟩ | ⟨x, rfl, -⟩
    · have : joined sep [] = [] := by
        unfold joined
        cases sep <;> simp [pyJoin, removeprefix, removesuffix, startsWith, endsWith]
      simp [squashIf, hws, this]
    · simp [squashIf, hws, joined]
  rw [h1, hj]
  refine List.Nodup.map_on ?_ h2
  intro a ha b hb hab
  rcases hlen a ha with ⟨rfl, h⟩ | ⟨x, rfl, h⟩ <;> rcases hlen b hb with ⟨rfl, h'⟩ | ⟨y, rfl, h'⟩
  · rfl
  · exact absurd h h'
  · exact absurd h' h
  · simpa using hab

/-- Non-vacuity: `{1-2$$a|b|a}` with a repeated option, and a wildcard option. -/
example : (samplePrompts Demo.env 30 (Demo.ctx .comb)
    (.inr (.variant [(.lit c!"a" none, 1), (.lit c!"b" none, 1), (.lit c!"a" none, 1)] 1 2 c!"-" none)) 10 0).1 =
    [c!"a", c!"b", c!"a-b", c!"b-a"] := by decide +kernel
example : (samplePrompts Demo.env 30 (Demo.ctx .comb)
    (.inr (.variant [(.wild (.inl c!"colors") none [], 1), (.lit c!"red" none, 1)] 1 1 c!"-" none)) 10 0).1 =
    [c!"red", c!"blue"] := by decide +kernel

/-- **C03.**  A combinatorial variant of pairwise different literals produces (and then stops) the
joins of all ordered selections of permitted size, each selection exactly once; there are
n!/(n-j)! selections of size j (`Nat.descFactorial`). -/
theorem combinatorial_literals_complete (E : Env W) (hws : E.ignoreWs = false) (ctx : Ctx)
    (hm : ctx.method = .comb) (ts : List Str) (hts : ts.Nodup) (hne : ts ≠ []) (weight : Str → Rat)
    (lo hi : Int) (sep : Str) (m : Option Method) (hf : Finite m) (w : W) :
    ∃ sels : List (List Str),
      sels.Nodup ∧
      (∀ t, t ∈ sels ↔ t.Nodup ∧ t ⊆ ts ∧ max 0 (min (min lo hi) ts.length) ≤ (t.length : Int) ∧
        (t.length : Int) ≤ min (max lo hi) ts.length) ∧
      (∀ j : Nat, max 0 (min (min lo hi) ts.length) ≤ (j : Int) → (j : Int) ≤ min (max lo hi) ts.length →
        (sels.filter (fun t => t.length = j)).length = ts.length.descFactorial j) ∧
      ∃ N, ∀ fuel ≥ N, ∀ k > sels.length,
        samplePrompts E fuel ctx
          (.inr (.variant (ts.map fun t => (.lit t none, weight t)) lo hi sep m)) k w =
          (sels.map (joined sep), .stop w) := by
  refine ⟨(sizes ts.length lo hi).flatMap fun k => selections k ts,
    nodup_flat_selections (nodup_sizes _ _ _) hts, ?_, ?_, ?_⟩
  · intro t
    simp only [List.mem_flatMap, mem_sizes, mem_selections]
    constructor
    · rintro ⟨k, ⟨h1, h2⟩, rfl, h3, h4⟩
      exact ⟨h3, h4, h1, h2⟩
    · rintro ⟨h1, h2, h3, h4⟩
      exact ⟨t.length, ⟨h3, h4⟩, rfl, h1, h2⟩
  · intro j h1 h2
    rw [filter_length_selections _ (nodup_sizes _ _ _) _ _ (mem_sizes.2 ⟨h1, h2⟩),
      length_selections _ _ hts]
  · have hp : Plain E.ignoreWs (.variant (ts.map fun t => (.lit t none, weight t)) lo hi sep m) := by
      refine .variant hf ?_
      intro o ho
      obtain ⟨t, -, rfl⟩ := List.mem_map.1 ho
      exact .lit (Or.inl rfl)
    obtain ⟨N, hN⟩ := plain_enumerates E ctx hm _ hp w
    refine ⟨N, fun fuel hfu k hk => ?_⟩
    obtain ⟨h1, h2⟩ := hN fuel hfu k
    have hen := enum_literals E.ignoreWs ts hts hne weight (fun _ => none) lo hi sep m
    have hsq : squashIf E.ignoreWs = id := by funext s; simp [squashIf, hws]
    rw [hen, hsq, List.map_id] at h1 h2
    have htr : (Cmd.variant (ts.map fun t => (.lit t none, weight t)) lo hi sep m).truthy = true := by
      simp [Cmd.truthy, hne]
    rw [unlessEmpty, if_pos htr] at h1 h2
    rw [List.length_map] at h2
    rw [List.take_of_length_le (by rw [List.length_map]; omega)] at h1
    exact Prod.ext h1 (h2 hk)

example : (samplePrompts Demo.env 30 (Demo.ctx .comb)
    (.inr (.variant ([c!"a", c!"b", c!"c"].map fun t => (.lit t none, 1)) 2 5 c!"" none)) 100 0).1 =
    [c!"ab", c!"ac", c!"ba", c!"bc", c!"ca", c!"cb", c!"abc", c!"acb", c!"bac", c!"bca", c!"cab", c!"cba"] := by
  decide +kernel

/-- **C04** for the sampling context (any method): asking for `n` prompts gives at most `n`, namely
the first `n` of any larger request from the same state. -/
theorem limit_truncates (E : Env W) (fuel : Nat) (ctx : Ctx) (p : Prompt) (n : Nat) (w : W) :
    (samplePrompts E fuel ctx p n w).1.length ≤ n ∧
    ∀ m ≥ n, (samplePrompts E fuel ctx p n w).1 = (samplePrompts E fuel ctx p m w).1.take n := by
  unfold samplePrompts
  cases sampleGen E ctx p with
  | error e => simp
  | ok g =>
    dsimp only
    induction n generalizing g w with
    | zero => exact ⟨by simp [collect], fun m _ => by simp [collect]⟩
    | succ n ih =>
      refine ⟨?_, fun m hm => ?_⟩
      · unfold collect
        cases nextG E fuel g w with
        | ok o w' =>
          rcases o with _ | ⟨v, g'⟩
          · simp
          · simpa using (ih w' g').1
        | err e w' => simp
        | fuel => simp
      · obtain ⟨m, rfl⟩ : ∃ j, m = j + 1 := ⟨m - 1, by omega⟩
        unfold collect
        cases nextG E fuel g w with
        | ok o w' =>
          rcases o with _ | ⟨v, g'⟩
          · simp
          · simp only [List.take_succ_cons]
            rw [(ih w' g').2 m (by omega)]
        | err e w' => simp
        | fuel => simp

end Verif.Props
