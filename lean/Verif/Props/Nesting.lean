import Verif.Proofs.NoComb
import Verif.Proofs.Assign
import Verif.Spec.Nesting
import Verif.Spec.Demo
import Verif.Props.Text
import Verif.Props.Variables
/-!
# C19 scoping, C20 nesting of methods, C21 whitespace at the level of prompts
-/

namespace Verif.Props
open Verif Spec
variable {W : Type}

/-! ## C20 -/

theorem brokenRecs_agree (E : Env W) (n : Nat) : AgreeNC (recs E n) (brokenRecs E n) := by
  induction n with
  | zero => exact ⟨fun _ _ => .diverge, fun _ _ => .diverge⟩
  | succ n ih =>
    refine ⟨fun g hg => ?_, fun a ha => stepA_NC ih ha⟩
    have : isCombinatorial g = false := by
      cases hg with
      | start h => simp [isCombinatorial, h]
      | _ => rfl
    simp only [recs, brokenRecs, this, Bool.false_eq_true, if_false]
    exact stepG_NC ih hg

theorem brokenCollect_eq (E : Env W) (n k : Nat) {g : Gen} (hg : NC g) (w : W) :
    collect E n k g w = brokenCollect E n k g w := by
  induction k generalizing g w with
  | zero => rfl
  | succ k ih =>
    obtain ⟨h1, h2⟩ := (brokenRecs_agree E n).G g hg w
    simp only [collect, brokenCollect, nextG]
    rw [← h1]
    cases h : (recs E n).G g w with
    | ok o w' =>
      rcases o with _ | ⟨v, g'⟩
      · rfl
      · simp only []
        rw [ih (h2 _ _ h)]
    | err e w' => rfl
    | fuel => rfl

/-- **C20.**  No combinatorial sampler runs below a random or cyclical one: if the method of a
command is not combinatorial, replacing the combinatorial sampler by one that always fails makes no
difference, whatever is nested in the command, its variables and its wildcards. -/
theorem no_combinatorial_below (E : Env W) (fuel : Nat) (ctx : Ctx) (c : Cmd)
    (hm : nest ctx.method c.method ≠ .comb) (hc : ∀ n d, c ≠ .access n d) (k : Nat) (w : W) :
    samplePrompts E fuel ctx (.inr c) k w = brokenSamplePrompts E fuel ctx (.inr c) k w := by
  unfold samplePrompts brokenSamplePrompts
  cases h : sampleGen E ctx (.inr c) with
  | error e => rfl
  | ok g =>
    refine brokenCollect_eq E fuel k ?_ w
    simp only [sampleGen] at h
    split at h
    · cases h; exact .done
    · cases h1 : mkGen E.unknown ctx c with
      | error e => rw [h1] at h; cases h
      | ok g' =>
        have := nesting_rule E ctx c g' hc h1
        rw [h1] at h; cases h
        subst this
        split
        · exact .squash (.start hm)
        · exact .start hm

/-- Non-vacuity: a combinatorial variant inside a random sequence. -/
example : nest Method.random (Cmd.seq [Demo.oneOf [c!"a", c!"b"] (some .comb)] [] none).method ≠ .comb ∧
    (samplePrompts Demo.env 30 (Demo.ctx .random)
      (.inr (.seq [Demo.oneOf [c!"a", c!"b"] (some .comb)] [] none)) 3 1).1 =
        [c!"a", c!"a", c!"a"] := by decide +kernel

/-- The broken engine does fail where the combinatorial sampler is used. -/
example : Demo.errOf (brokenSamplePrompts Demo.env 30 (Demo.ctx .comb)
    (.inr (Demo.oneOf [c!"a", c!"b"])) 3 0).2 = some .notImplemented := by decide +kernel

/-! ## C19 -/

theorem trace_mono {E : Env W} {n m : Nat} {g : Gen} {vs : List Str} (h : Trace E n g vs)
    (hn : n ≤ m) : Trace E m g vs := by
  induction h with
  | nil => exact .nil
  | @cons g v g' vs w w' h _ ih =>
    refine .cons (w := w) (w' := w') ?_ ih
    rw [nextG_fuel_mono E hn g w (by rw [h]; simp), h]

theorem rotate_ok_iff {r : Recs W} {gs gs' : List Gen} {vs : List Str} {w w' : W}
    (h : r.rotate gs w = .ok (vs, gs') w') : vs.length = gs.length ∧ gs'.length = gs.length ∧
      ∀ (i : Nat) (g : Gen), gs[i]? = some g → ∃ v g' w1 w2, vs[i]? = some v ∧ gs'[i]? = some g' ∧
        r.G g w1 = .ok (some (v, g')) w2 := by
  induction gs generalizing gs' vs w w' with
  | nil => cases h; simp
  | cons g gs ih =>
    unfold Recs.rotate at h
    obtain ⟨⟨v, g'⟩, w1, h1, h2⟩ := M.bind_ok.1 h
    obtain ⟨⟨vs1, gs1⟩, w2, h3, h4⟩ := M.bind_ok.1 h2
    simp only [M.pure_eq, Res.ok.injEq, Prod.mk.injEq] at h4
    obtain ⟨⟨rfl, rfl⟩, rfl⟩ := h4
    obtain ⟨l1, l2, ih⟩ := ih h3
    refine ⟨by simp [l1], by simp [l2], ?_⟩
    intro i g0 hi
    cases i with
    | zero =>
      simp at hi; subst hi
      unfold Recs.next! at h1
      obtain ⟨o, w3, h5, h6⟩ := M.bind_ok.1 h1
      cases o with
      | none => cases h6
      | some x =>
        simp only [M.pure_eq, Res.ok.injEq] at h6
        obtain ⟨rfl, rfl⟩ := h6
        exact ⟨v, g', w, w3, rfl, rfl, h5⟩
    | succ i =>
      obtain ⟨v0, g0', w3, w4, h5, h6, h7⟩ := ih i g0 (by simpa using hi)
      exact ⟨v0, g0', w3, w4, by simpa using h5, by simpa using h6, h7⟩

theorem seqNF_columns (E : Env W) (n k : Nat) (sep : Str) (gens : List Gen) (w : W) :
    ∃ rows : List (List Str), (collect E n k (.seqNF sep gens) w).1 = rows.map (joined sep) ∧
      (∀ row ∈ rows, row.length = gens.length) ∧
      ∀ (i : Nat) (g : Gen), gens[i]? = some g → Trace E n g (rows.map (·.getD i [])) := by
  induction k generalizing gens w with
  | zero => exact ⟨[], rfl, by simp, fun _ _ _ => .nil⟩
  | succ k ih =>
    unfold collect
    cases h : nextG E n (.seqNF sep gens) w with
    | err e w' => exact ⟨[], rfl, by simp, fun _ _ _ => .nil⟩
    | fuel => exact ⟨[], rfl, by simp, fun _ _ _ => .nil⟩
    | ok o w' =>
      rcases o with _ | ⟨v, g'⟩
      · exact ⟨[], rfl, by simp, fun _ _ _ => .nil⟩
      · cases n with
        | zero => cases h
        | succ n =>
          have hs : ((recs E n).rotate gens >>= fun x =>
              (pure (some (joined sep x.1, .seqNF sep x.2)) : M W _)) w =
              .ok (some (v, g')) w' := h
          obtain ⟨⟨vs, gens'⟩, w1, h1, h2⟩ := M.bind_ok.1 hs
          simp only [M.pure_eq, Res.ok.injEq, Option.some.injEq, Prod.mk.injEq] at h2
          obtain ⟨⟨rfl, rfl⟩, rfl⟩ := h2
          obtain ⟨l1, l2, hrot⟩ := rotate_ok_iff h1
          obtain ⟨rows, hr1, hr2, hr3⟩ := ih gens' w1
          refine ⟨vs :: rows, by simp [hr1], ?_, ?_⟩
          · intro row hrow
            rcases List.mem_cons.1 hrow with rfl | hrow
            · exact l1
            · rw [hr2 row hrow, l2]
          · intro i g hi
            obtain ⟨v0, g0, w2, w3, h5, h6, h7⟩ := hrot i g hi
            rw [List.map_cons, show vs.getD i [] = v0 by simp [List.getD, h5]]
            refine .cons (w := w2) (w' := w3) ?_ (hr3 i g0 h6)
            have := nextG_fuel_mono E (Nat.le_succ n) g w2 (by rw [nextG, h7]; simp)
            rw [this]; exact h7

theorem mkGens_get {u : Option Cmd} {ctx : Ctx} {cs : List Cmd} {gs : List Gen}
    (h : mkGens u ctx cs = .ok gs) : gs.length = cs.length ∧ ∀ (i : Nat) c, cs[i]? = some c →
      ∃ g, gs[i]? = some g ∧ mkGen u ctx c = .ok g := by
  induction cs generalizing gs with
  | nil => cases h; simp
  | cons c cs ih =>
    unfold mkGens at h
    cases h1 : mkGen u ctx c with
    | error e => rw [h1] at h; cases h
    | ok g =>
      rw [h1] at h
      cases h2 : mkGens u ctx cs with
      | error e => rw [h2] at h; cases h
      | ok gs' =>
        rw [h2] at h; cases h
        obtain ⟨l, ih⟩ := ih h2
        refine ⟨by simp [l], fun i c0 hi => ?_⟩
        cases i with
        | zero => simp at hi; subst hi; exact ⟨g, rfl, h1⟩
        | succ i => exact ih i c0 (by simpa using hi)

/-- **C19.**  A part of a sequence samples as it does alone, in a random or cyclical context:
assignments in and parameters of other parts (and their nested parts) do not matter.  Precisely:
there is one text per token in each prompt, and the texts of each token are produced by the
generator which that token has on its own in the variables `new ++ vars` (the direct assignments of
this sequence and the surrounding variables), called once per prompt. -/
theorem siblings_sample_alone (E : Env W) (fuel : Nat) (ctx : Ctx) (toks : List Cmd) (sep : Str)
    (m : Option Method) (hm : nest ctx.method m ≠ .comb) (k : Nat) (w : W) :
    let prompts := (samplePrompts E fuel ctx (.inr (.seq toks sep m)) k w).1
    prompts = [] ∨ ∃ (toks' : List Cmd) (new : List (Str × Cmd)) (rows : List (List Str)),
      Assigned E ctx.vars toks toks' new ∧
      prompts = rows.map (fun row => squashIf E.ignoreWs (joined sep row)) ∧
      (∀ row ∈ rows, row.length = toks'.length) ∧
      ∀ (i : Nat) (c : Cmd), toks'[i]? = some c →
        ∃ g, mkGen E.unknown ⟨nest ctx.method m, new ++ ctx.vars, ctx.being⟩ c = .ok g ∧
          Trace E fuel g (rows.map (·.getD i [])) := by
  intro prompts
  cases toks with
  | nil =>
    left
    show (collect E fuel k .done w).1 = []
    cases k with
    | zero => rfl
    | succ k => cases fuel <;> rfl
  | cons t toks =>
    have key : ∀ n, n ≤ fuel → ∀ ctx', ctx' = (⟨nest ctx.method m, ctx.vars, ctx.being⟩ : Ctx) →
      (collect E n k (.start ctx' (.seq (t :: toks) sep m)) w).1 = [] ∨
      ∃ (toks' : List Cmd) (new : List (Str × Cmd)) (rows : List (List Str)),
        Assigned E ctx.vars (t :: toks) toks' new ∧
        (collect E n k (.start ctx' (.seq (t :: toks) sep m)) w).1 = rows.map (joined sep) ∧
        (∀ row ∈ rows, row.length = toks'.length) ∧
        ∀ (i : Nat) (c : Cmd), toks'[i]? = some c →
          ∃ g, mkGen E.unknown ⟨nest ctx.method m, new ++ ctx.vars, ctx.being⟩ c = .ok g ∧
            Trace E fuel g (rows.map (·.getD i [])) := by
      intro n hn ctx' hctx'
      cases k with
      | zero => exact Or.inl rfl
      | succ k =>
        cases n with
        | zero => exact Or.inl rfl
        | succ n =>
          unfold collect
          cases h : nextG E (n + 1) (.start ctx' (.seq (t :: toks) sep m)) w with
          | err e w' => exact Or.inl rfl
          | fuel => exact Or.inl rfl
          | ok o w' =>
            rcases o with _ | ⟨v, g'⟩
            · exact Or.inl rfl
            · right
              simp only [nextG, recs, stepG] at h
              obtain ⟨g0, w1, h1, h2⟩ := M.bind_ok.1 h
              obtain ⟨⟨toks', new⟩, w2, h4, h5⟩ := M.bind_ok.1 h1
              have hA := assigns_good (recs_good E n) h4
              have nf : (do
                    let gens ← M.lift (mkGens E.unknown (ctx'.withVars new) toks')
                    return .seqNF sep gens : M W Gen) w2 = .ok g0 w1 →
                  ∃ gens, mkGens E.unknown (ctx'.withVars new) toks' = .ok gens ∧
                    g0 = .seqNF sep gens := by
                intro h
                obtain ⟨gens, w3, h6, h7⟩ := M.bind_ok.1 h
                replace h6 := M.lift_ok_iff.1 h6
                simp only [M.pure_eq, Res.ok.injEq] at h7
                exact ⟨gens, h6.1, h7.1.symm⟩
              have hg : ∃ gens, mkGens E.unknown (ctx'.withVars new) toks' = .ok gens ∧
                    g0 = .seqNF sep gens := by
                have hmm : ctx'.method ≠ .comb := by rw [hctx']; exact hm
                cases hc : ctx'.method with
                | comb => exact absurd hc hmm
                | random => rw [hc] at h5; exact nf h5
                | cyc => rw [hc] at h5; exact nf h5
              obtain ⟨gens, hgens, rfl⟩ := hg
              obtain ⟨hl, hget⟩ := mkGens_get hgens
              have h2' : nextG E (n + 1) (.seqNF sep gens) w1 = .ok (some (v, g')) w' := by
                rw [nextG_fuel_mono E (Nat.le_succ n) _ w1 (by rw [nextG, h2]; simp)]
                exact h2
              obtain ⟨rows, hr1, hr2, hr3⟩ := seqNF_columns E (n + 1) (k + 1) sep gens w1
              unfold collect at hr1
              rw [h2'] at hr1
              refine ⟨toks', new, rows, by rw [hctx'] at hA; exact hA, hr1, ?_, ?_⟩
              · intro row hrow; rw [hr2 row hrow, hl]
              · intro i c hi
                obtain ⟨g, hg1, hg2⟩ := hget i c hi
                refine ⟨g, ?_, trace_mono (hr3 i g hg1) hn⟩
                rw [hctx'] at hg2
                exact hg2
    have hg := mkGen_seq E.unknown ctx (t :: toks) sep m
    rw [effMethod_eq_nest] at hg
    have hp : prompts = (samplePrompts E fuel ctx (.inr (.seq (t :: toks) sep m)) k w).1 := rfl
    unfold samplePrompts sampleGen at hp
    simp only [Cmd.truthy, List.isEmpty_cons, Bool.not_false, Bool.not_true, Bool.false_eq_true,
      if_false, hg] at hp
    by_cases hw : E.ignoreWs = true
    · simp only [hw, if_true] at hp
      cases fuel with
      | zero =>
        left
        rw [hp]
        cases k <;> rfl
      | succ fuel =>
        rw [collect_squash] at hp
        rcases key fuel (Nat.le_succ _) _ rfl with h | ⟨toks', new, rows, h1, h2, h3, h4⟩
        · left; rw [hp]; erw [h]; rfl
        · right
          refine ⟨toks', new, rows, h1, ?_, h3, h4⟩
          rw [hp]
          erw [h2]
          simp [squashIf, hw]
    · simp only [hw, Bool.false_eq_true, if_false] at hp
      rcases key fuel (Nat.le_refl _) _ rfl with h | ⟨toks', new, rows, h1, h2, h3, h4⟩
      · left; rw [hp]; exact h
      · right
        refine ⟨toks', new, rows, h1, ?_, h3, h4⟩
        rw [hp]
        refine h2.trans ?_
        simp [squashIf, hw]

theorem assigned_no_assign {E : Env W} {vars : List (Str × Cmd)} {toks toks' : List Cmd}
    {new : List (Str × Cmd)} (h : Assigned E vars toks toks' new)
    (hn : ∀ c ∈ toks, ∀ n v i o, c ≠ .assign n v i o) : toks' = toks ∧ new = [] := by
  match h with
  | .nil => exact ⟨rfl, rfl⟩
  | .tok _ h' =>
    obtain ⟨rfl, rfl⟩ := assigned_no_assign h' (fun c hc => hn c (by simp [hc]))
    exact ⟨rfl, rfl⟩
  | .set _ _ => exact absurd rfl (hn _ (List.mem_cons_self ..) _ _ _ _)

/-- **C19**, for every method, at the level of possible texts: in a sequence without direct
assignments, every token shows one of the texts it has in the surrounding variables, whatever the
other tokens assign inside. -/
theorem siblings_language (E : Env W) (fuel : Nat) (ctx : Ctx) (toks : List Cmd) (sep : Str)
    (m : Option Method) (hn : ∀ c ∈ toks, ∀ n v i o, c ≠ .assign n v i o) (k : Nat) (w : W) :
    ∀ s ∈ (samplePrompts E fuel ctx (.inr (.seq toks sep m)) k w).1,
      ∃ strs, LangAll E ctx.vars toks strs ∧
        (s = squashIf E.ignoreWs (joined sep strs) ∨
         s = squashIf E.ignoreWs (joined sep ([] :: strs ++ [[]]))) := by
  intro s hs
  cases toks with
  | nil =>
    have : s ∈ (collect E fuel k .done w).1 := hs
    cases k with
    | zero => cases this
    | succ k => cases fuel <;> cases this
  | cons t toks =>
    obtain ⟨n, hn'⟩ := samplePrompts_cmd E fuel ctx (.seq (t :: toks) sep m) k w rfl
      (mkGen_seq E.unknown ctx _ sep m)
    rw [hn'] at hs
    obtain ⟨s0, h0, rfl⟩ := List.mem_map.1 hs
    rcases seq_fixed_collect (E := E) (ctx := ctx.withMethod (effMethod ctx.method m))
      (toks := t :: toks) (sep := sep) (m := m) n k w with h | ⟨toks', new, hA, hall⟩
    · rw [h] at h0; cases h0
    · obtain ⟨rfl, rfl⟩ := assigned_no_assign hA hn
      obtain ⟨strs, h1, h2⟩ := hall s0 h0
      refine ⟨strs, h1, ?_⟩
      rcases h2 with rfl | rfl
      · exact Or.inl rfl
      · exact Or.inr rfl

/-- Non-vacuity: the inner sequence assigns `x`; the access behind it still sees its default. -/
example : (samplePrompts Demo.env 30 (Demo.ctx .cyc)
    (.inr (.seq [.seq [.assign c!"x" (Demo.oneOf [c!"a", c!"b"]) false true, .access c!"x" none] [] none,
      .lit c!"-" none, .access c!"x" (some (.lit c!"d" none))] [] none)) 3 0).1 =
    [c!"a-d", c!"b-d", c!"a-d"] := by decide +kernel

/-! ## C21 -/

/-- **C21.**  With ignore_whitespace every produced prompt is the squashed form of some text, hence
has no leading or trailing whitespace and only single spaces between words, and squashing it again
changes nothing. -/
theorem prompts_squashed (E : Env W) (hws : E.ignoreWs = true) (fuel : Nat) (ctx : Ctx) (p : Prompt)
    (k : Nat) (w : W) : ∀ s ∈ (samplePrompts E fuel ctx p k w).1,
      (∃ t, s = squashWhitespace t) ∧ squashWhitespace s = s := by
  intro s hs
  have h : ∃ t, s = squashWhitespace t := by
    unfold samplePrompts at hs
    cases hg : sampleGen E ctx p with
    | error e => rw [hg] at hs; cases hs
    | ok g =>
      rw [hg] at hs
      have hg' : g = .done ∨ ∃ g', g = .squash g' := by
        have key : ∀ c, (match mkGen E.unknown ctx c with
            | .error e => .error e
            | .ok g => .ok (.squash g) : Except Err Gen) = .ok g →
            ∃ g', g = .squash g' := by
          intro c h
          cases h1 : mkGen E.unknown ctx c with
          | error e => rw [h1] at h; cases h
          | ok g' =>
            rw [h1] at h
            exact ⟨g', (Except.ok.inj h).symm⟩
        cases p with
        | inl t =>
          simp only [sampleGen, hws, if_true] at hg
          split at hg
          · exact Or.inl (Except.ok.inj hg).symm
          · cases h1 : E.parse t with
            | error e => rw [h1] at hg; cases hg
            | ok c => rw [h1] at hg; exact Or.inr (key c hg)
        | inr c =>
          simp only [sampleGen, hws, if_true] at hg
          split at hg
          · exact Or.inl (Except.ok.inj hg).symm
          · exact Or.inr (key c hg)
      rcases hg' with rfl | ⟨g', rfl⟩
      · cases k with
        | zero => cases hs
        | succ k => cases fuel <;> cases hs
      · cases fuel with
        | zero => cases k <;> cases hs
        | succ n =>
          rw [collect_squash] at hs
          obtain ⟨t, -, rfl⟩ := List.mem_map.1 hs
          exact ⟨t, rfl⟩
  obtain ⟨t, rfl⟩ := h
  exact ⟨⟨t, rfl⟩, squash_idempotent t⟩

end Verif.Props
