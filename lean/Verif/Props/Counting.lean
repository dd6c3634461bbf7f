import Verif.Proofs.Lists
import Verif.Props.Random
import Verif.Props.Cyclical
/-!
# C05 non-finite parts do not multiply; C51 combinatorial enumeration with wildcards and variables
-/

namespace Verif.Props
open Verif Spec
variable {W : Type}

/-- **C51.**  Sampled combinatorially, a prompt made of literals, sequences, variants, wildcards,
variables, assignments and wraps produces exactly the texts of `Spec.ListsPrompt`, in order, and then
stops; whatever the random source does. -/
theorem combinatorial_lists (E : Env W) (vars : List (Str × Cmd)) (being : List Str) (p : Prompt)
    (outs : List Str) (h : ListsPrompt E vars being p outs) (w : W) :
    ∃ N, ∀ fuel ≥ N, ∀ k,
      (samplePrompts E fuel ⟨.comb, vars, being⟩ p k w).1 = outs.take k ∧
      (outs.length < k → ∃ w', (samplePrompts E fuel ⟨.comb, vars, being⟩ p k w).2 = .stop w') := by
  obtain ⟨g, hg, hy⟩ := listsPrompt_Yx h
  obtain ⟨outs', h1, N, hN⟩ := PY.collect hy w
  obtain rfl := forall2_exact h1
  refine ⟨N, fun fuel hf k => ?_⟩
  simp only [samplePrompts, hg]
  exact ⟨(hN fuel hf).1 k, (hN fuel hf).2 k⟩

/-- Non-vacuity: `${v=!z}__colors__${v}`. -/
example : ListsPrompt Demo.env [] [] (.inr (.seq [.assign c!"v" (.seq [.lit c!"z" none] [] none) true true,
    .wild (.inl c!"colors") none [], .access c!"v" none] [] none)) [c!"redz", c!"bluez"] := by
  have hw : ∀ vars being, Lists Demo.env vars being (.wild (.inl c!"colors") none [])
      ((iterateWeighted [⟨c!"red", none⟩, ⟨c!"blue", none⟩]).flatMap fun x => [x]) := by
    intro vars being
    refine .wild (p := c!"colors") (ps := []) (fun x => [x]) (Or.inl rfl) ?_ (fun w => ⟨w, rfl⟩) (by simp) ?_
    · exact .text (outs := [c!"colors"]) (by simp) rfl (.lit (Or.inl rfl))
    · intro x hx
      have hit : iterateWeighted [⟨c!"red", none⟩, ⟨c!"blue", none⟩] = [c!"red", c!"blue"] := by
        decide +kernel
      have hx' : x ≠ [] := by
        rw [hit] at hx
        simp at hx
        rcases hx with rfl | rfl <;> simp
      exact .text (outs := [x]) hx' rfl (.lit (Or.inl rfl))
  have hz : Lists Demo.env [] [] (.seq [.lit c!"z" none] [] none) [c!"z"] :=
    .seq (outss := [[c!"z"]]) (Or.inl rfl) (.tok (by simp) .nil)
      (.cons (.lit (Or.inl rfl)) (by simp) .nil)
  exact .cmd (outs := [c!"redz", c!"bluez"]) rfl
    (.seq (outss := [[c!"red", c!"blue"], [c!"z"]]) (Or.inl rfl)
      (.immediate (x := c!"z") (xs := []) (Or.inl rfl) (by simp) hz (.tok (by simp) (.tok (by simp) .nil)))
      (.cons (hw _ _) (by simp) (.cons (.access (c := .lit c!"z" none) (.var rfl rfl) (by simp)
        (.lit (Or.inl rfl))) (by simp) .nil)))

/-- **C05** (general form).  A non-empty command that is `Spec.Counted` produces exactly one text per
predicate, satisfying it, and then stops; whatever the random source does. -/
theorem counted_prompts (E : Env W) (vars : List (Str × Cmd)) (being : List Str) (c : Cmd)
    (ps : List (Str → Prop)) (ht : c.truthy = true) (h : Counted E vars being c ps) (w : W) :
    ∃ outs : List Str, List.Forall₂ (fun p s => ∃ x, p x ∧ s = squashIf E.ignoreWs x) ps outs ∧
      ∃ N, ∀ fuel ≥ N, ∀ k,
        (samplePrompts E fuel ⟨.comb, vars, being⟩ (.inr c) k w).1 = outs.take k ∧
        (outs.length < k →
          ∃ w', (samplePrompts E fuel ⟨.comb, vars, being⟩ (.inr c) k w).2 = .stop w') := by
  obtain ⟨-, g, hg, hy⟩ := counted_PY h
  obtain ⟨outs, h1, N, hN⟩ := PY.collect (PY.squashIf hy) w
  rw [List.forall₂_map_left_iff] at h1
  refine ⟨outs, h1, N, fun fuel hf k => ?_⟩
  have hg' : sampleGen E ⟨.comb, vars, being⟩ (.inr c) =
      .ok (if E.ignoreWs then .squash g else g) := by simp [sampleGen, ht, hg]
  simp only [samplePrompts, hg']
  exact ⟨(hN fuel hf).1 k, (hN fuel hf).2 k⟩

theorem product_card {α : Type} (ls : List (List α)) :
    (product ls).length = (ls.map List.length).foldr (· * ·) 1 := by
  induction ls with
  | nil => rfl
  | cons l ls ih =>
    simp only [product, List.length_flatMap, List.length_map, ih, List.map_cons, List.foldr_cons]
    induction l with
    | nil => simp
    | cons a l ihl => simp only [List.map_cons, List.sum_cons, ihl, List.length_cons]; rw [Nat.succ_mul, Nat.add_comm]

/-- No own method, or marked combinatorial. -/
def finiteTok (c : Cmd) : Bool := c.method = none || c.method = some .comb

/-- **C05.**  In a combinatorial sequence of finite tokens (listing the texts `texts c`) and tokens
marked random or cyclical (that never run dry), the number of prompts is the product of the numbers of
texts of the finite tokens; each prompt combines a text of each finite token with a possible text of
each other token, in the order of the tokens.  This holds whatever the random source does. -/
theorem nonfinite_tokens_do_not_multiply (E : Env W) (vars : List (Str × Cmd)) (being : List Str)
    (toks : List Cmd) (sep : Str) (m : Option Method) (texts : Cmd → List Str) (hm : Finite m)
    (hne : toks ≠ []) (hna : ∀ n v i o, .assign n v i o ∉ toks)
    (hfin : ∀ c ∈ toks, finiteTok c = true → Lists E vars being c (texts c))
    (hone : ∀ c ∈ toks, c.method = none → texts c ≠ [])
    (hnf : ∀ c ∈ toks, finiteTok c = false → Prod E .comb vars being c) (w : W) :
    ∃ outs : List Str,
      outs.length = ((toks.filter finiteTok).map fun c => (texts c).length).foldr (· * ·) 1 ∧
      (∀ s ∈ outs, ∃ strs, List.Forall₂ (fun c x => if finiteTok c then x ∈ texts c else Lang E vars c x)
        toks strs ∧ s = squashIf E.ignoreWs (joined sep ([] :: strs ++ [[]]))) ∧
      ∃ N, ∀ fuel ≥ N, ∀ k,
        (samplePrompts E fuel ⟨.comb, vars, being⟩ (.inr (.seq toks sep m)) k w).1 = outs.take k ∧
        (outs.length < k → ∃ w',
          (samplePrompts E fuel ⟨.comb, vars, being⟩ (.inr (.seq toks sep m)) k w).2 = .stop w') := by
  let F : Cmd → List (Str → Prop) := fun c =>
    if finiteTok c then (texts c).map fun o s => s = o else [Lang E vars c]
  have hzip : ∀ c ps, (c, ps) ∈ toks.zip (toks.map F) → c ∈ toks ∧ ps = F c := by
    intro c ps h
    rw [List.zip_map_right] at h
    obtain ⟨⟨a, b⟩, hab, he⟩ := List.mem_map.1 h
    have : a = b := by
      clear h he
      induction toks with
      | nil => simp at hab
      | cons t toks ih =>
        simp only [List.zip_cons_cons, List.mem_cons] at hab
        rcases hab with hab | hab
        · cases hab; rfl
        · by_cases ht : toks = []
          · subst ht; simp at hab
          · exact ih ht (fun n v i o h => hna n v i o (by simp [h])) (fun c hc => hfin c (by simp [hc]))
              (fun c hc => hone c (by simp [hc])) (fun c hc => hnf c (by simp [hc])) hab
    subst this
    simp only [Prod.map, id] at he
    cases he
    exact ⟨(List.of_mem_zip hab).1, rfl⟩
  have hfinF : ∀ c : Cmd, Finite c.method ↔ finiteTok c = true := by
    intro c; simp [finiteTok, Finite]
  have hA : ListsAssigned E vars being toks toks [] := by
    clear hzip hfin hone hnf hne
    induction toks with
    | nil => exact .nil
    | cons c toks ih =>
      exact .tok (fun n v i o h => hna n v i o (by simp [h])) (ih fun n v i o h => hna n v i o (by simp [h]))
  have hC : Counted E vars being (.seq toks sep m) ((product (toks.map F)).map fun t s =>
      ∃ strs, List.Forall₂ (fun p x => p x) t strs ∧ s = joined sep ([] :: strs ++ [[]])) := by
    refine .seq (new := []) (toks.map F) hm hA (by simp) ?_ ?_ ?_
    · intro c ps hc hf
      obtain ⟨hmem, rfl⟩ := hzip c ps hc
      have hf' := (hfinF c).1 hf
      simp only [F, hf', if_true]
      exact .exact (hfin c hmem hf')
    · intro c ps hc hn
      obtain ⟨hmem, rfl⟩ := hzip c ps hc
      have hf' := (hfinF c).1 (Or.inl hn)
      simp only [F, hf', if_true]
      simpa using hone c hmem hn
    · intro c ps hc hn
      obtain ⟨hmem, rfl⟩ := hzip c ps hc
      have hf' : finiteTok c = false := by
        rcases hn with hn | hn <;> simp [finiteTok, hn]
      simp only [F, hf']
      exact ⟨hnf c hmem hf', rfl⟩
  have htr : (Cmd.seq toks sep m).truthy = true := by
    cases toks with
    | nil => exact absurd rfl hne
    | cons => rfl
  obtain ⟨outs, h1, h2⟩ := counted_prompts E vars being _ _ htr hC w
  refine ⟨outs, ?_, ?_, h2⟩
  · rw [← h1.length_eq, List.length_map, product_card, List.map_map]
    clear hzip hfin hone hnf hne hA hC htr h1 h2 hna
    induction toks with
    | nil => rfl
    | cons c toks ih =>
      cases hc : finiteTok c with
      | true => simp [hc, F, ih]
      | false => simp [hc, F, ih]
  · intro s hs
    obtain ⟨P, hP, x, hx, rfl⟩ : ∃ P, P ∈ ((product (toks.map F)).map fun t s =>
        ∃ strs, List.Forall₂ (fun p x => p x) t strs ∧ s = joined sep ([] :: strs ++ [[]])) ∧
        ∃ x, P x ∧ s = squashIf E.ignoreWs x := by
      clear h2 hC
      generalize ((product (toks.map F)).map fun t s =>
        ∃ strs, List.Forall₂ (fun p x => p x) t strs ∧ s = joined sep ([] :: strs ++ [[]])) = L at h1
      induction h1 with
      | nil => simp at hs
      | cons h1 _ ih =>
        rcases List.mem_cons.1 hs with rfl | hs
        · exact ⟨_, by simp, h1⟩
        · obtain ⟨P, hP, h⟩ := ih hs
          exact ⟨P, by simp [hP], h⟩
    obtain ⟨t, ht, rfl⟩ := List.mem_map.1 hP
    obtain ⟨strs, h3, rfl⟩ := hx
    refine ⟨strs, ?_, rfl⟩
    clear hzip hfin hone hnf hne hA hC htr h1 h2 hna hs hP
    induction toks generalizing t strs with
    | nil =>
      simp only [List.map_nil, product, List.mem_singleton] at ht
      subst ht
      cases h3; exact .nil
    | cons c toks ih =>
      simp only [List.map_cons, product, List.mem_flatMap, List.mem_map] at ht
      obtain ⟨p, hp, t', ht', rfl⟩ := ht
      cases h3 with
      | cons h4 h5 =>
        refine .cons ?_ (ih t' ht' _ h5)
        cases hc : finiteTok c with
        | true =>
          simp only [F, hc, if_true, List.mem_map] at hp
          obtain ⟨o, ho, rfl⟩ := hp
          simp only [if_true]
          rw [h4]; exact ho
        | false =>
          simp only [F, hc, Bool.false_eq_true, if_false, List.mem_singleton] at hp
          subst hp
          simpa using h4

/-- Non-vacuity: `{x|y} {~p|q}{1|2}` with a random part; there are four prompts, and what they show. -/
example : (∃ outs : List Str, outs.length = 4 ∧ ∃ N, ∀ fuel ≥ N, ∀ k,
      (samplePrompts Demo.env fuel (Demo.ctx .comb) (.inr (.seq [Demo.oneOf [c!"x", c!"y"],
        .lit c!" " none, Demo.oneOf [c!"p", c!"q"] (some .random), Demo.oneOf [c!"1", c!"2"]] [] none))
        k 5).1 = outs.take k) ∧
    (samplePrompts Demo.env 40 (Demo.ctx .comb) (.inr (.seq [Demo.oneOf [c!"x", c!"y"],
        .lit c!" " none, Demo.oneOf [c!"p", c!"q"] (some .random), Demo.oneOf [c!"1", c!"2"]] [] none))
        9 5).1 = [c!"x p1", c!"x p2", c!"y p1", c!"y p2"] := by
  have hv : ∀ (a b : Str) (vars being), Lists Demo.env vars being (Demo.oneOf [a, b])
      (variantTexts [(.lit a none, 1), (.lit b none, 1)] 1 1 c!"," fun c => match c with
        | .lit s _ => [s] | _ => []) := by
    intro a b vars being
    refine .variant (f := fun c => match c with | .lit s _ => [s] | _ => []) (Or.inl rfl) ?_
      (by simp) ?_
    · rintro ⟨p, m, v, w, he⟩; simp at he
    · intro p hp
      simp only [List.map_cons, List.map_nil, List.mem_cons, List.not_mem_nil, or_false] at hp
      rcases hp with rfl | rfl <;> exact .lit (Or.inl rfl)
  have e1 : (variantTexts [(.lit c!"x" none, 1), (.lit c!"y" none, 1)] 1 1 c!"," fun c => match c with
        | .lit s _ => [s] | _ => []) = [c!"x", c!"y"] := by decide +kernel
  have e2 : (variantTexts [(.lit c!"1" none, 1), (.lit c!"2" none, 1)] 1 1 c!"," fun c => match c with
        | .lit s _ => [s] | _ => []) = [c!"1", c!"2"] := by decide +kernel
  refine ⟨?_, by decide +kernel⟩
  obtain ⟨outs, h1, -, N, h2⟩ := nonfinite_tokens_do_not_multiply Demo.env [] [] [Demo.oneOf [c!"x", c!"y"],
      .lit c!" " none, Demo.oneOf [c!"p", c!"q"] (some .random), Demo.oneOf [c!"1", c!"2"]] [] none
    (fun c => if c = Demo.oneOf [c!"x", c!"y"] then [c!"x", c!"y"] else if c = .lit c!" " none then
      [c!" "] else [c!"1", c!"2"]) (Or.inl rfl) (by simp) (by simp [Demo.oneOf]) (by
      intro c hc hf
      simp only [List.mem_cons, List.not_mem_nil, or_false] at hc
      rcases hc with rfl | rfl | rfl | rfl
      · rw [if_pos rfl, ← e1]; exact hv _ _ _ _
      · rw [if_neg (by decide +kernel), if_pos rfl]; exact .lit (Or.inl rfl)
      · simp [finiteTok, Demo.oneOf, Cmd.method] at hf
      · rw [if_neg (by decide +kernel), if_neg (by decide +kernel), ← e2]; exact hv _ _ _ _)
    (by
      intro c hc _
      split
      · simp
      · split <;> simp) (by
      intro c hc hf
      simp only [List.mem_cons, List.not_mem_nil, or_false] at hc
      rcases hc with rfl | rfl | rfl | rfl
      · simp [finiteTok, Demo.oneOf, Cmd.method] at hf
      · simp [finiteTok, Cmd.method] at hf
      · refine .cmd (by simp [Demo.oneOf]) ?_
        have : nest .comb (Demo.oneOf [c!"p", c!"q"] (some .random)).method = .random := rfl
        rw [this]
        refine .random (by simp) (by decide) ?_ ?_
        · exact ⟨by decide +kernel, by decide +kernel⟩
        · intro p hp
          simp only [List.map_cons, List.map_nil, List.mem_cons, List.not_mem_nil, or_false] at hp
          rcases hp with rfl | rfl <;> exact .cmd (by simp) (.lit (by simp [nest, Cmd.method]))
      · simp [finiteTok, Demo.oneOf, Cmd.method] at hf) 5
  refine ⟨outs, ?_, N, fun fuel hf k => (h2 fuel hf k).1⟩
  rw [h1]
  decide +kernel

end Verif.Props
