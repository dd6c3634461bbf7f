import Verif.Props.Mixed
import Verif.Props.Chances
import Verif.Props.Hangs
import Verif.Props.System
/-!
# From text and files: probabilities, cyclical parts and endings (C70, C71, C80, C87)
-/

namespace Verif.Props
open Verif Verif.Spec

variable {R S : Type}

theorem runSys_rand (c : SysCfg R S) (ops : List (SysOp R S)) (s : Sys R S) (r : S) :
    runSys c (ops ++ [.rand r]) s = { runSys c ops s with rand := r } := by
  simp [runSys, SysOp.run]

/-- Sampling the text of an unambiguous template, with the manager in any state reached quietly and the random
generator in any state, is sampling what the template stands for, with the shelf in place of the manager. -/
theorem text_on_shelf (c : SysCfg R S) (M : Marks) (al : Char → Bool) (hM : M.usable al = true)
    (hc : c.parser = .of M al)
    (past : Sys R S) (ops : List (SysOp R S)) (hoff : past.mgr.shuffle = false) (hq : ∀ op ∈ ops, Quiet op) :
    let s := runSys c ops { past with mgr := Mgr.clearCache past.mgr }
    ∀ shelf, OnShelf c.mgr s.mgr.fs s.mgr.sort s.mgr.dedup shelf →
    ∀ (ps : List Piece), Spec.ok .top ps M = true → '\t' ∉ source ps M → source ps M ≠ [] →
    ∀ (r : S) (fuel : Nat) (ctx : Ctx) (k : Nat),
      (samplePrompts (system c) fuel ctx (.inl (source ps M)) k { s with rand := r }).1 =
        (samplePrompts (withShelf c shelf) fuel ctx (.inl (source ps M)) k r).1 ∧
      SameStop (fun s' r => s'.rand = r ∧ s'.mgr.fs = s.mgr.fs)
        (samplePrompts (system c) fuel ctx (.inl (source ps M)) k { s with rand := r }).2
        (samplePrompts (withShelf c shelf) fuel ctx (.inl (source ps M)) k r).2 ∧
      (withShelf c shelf).parse (source ps M) = .ok (meaning ps) := by
  intro s shelf hs ps hok ht hne r fuel ctx k
  have hp : (withShelf c shelf).parse (source ps M) = .ok (meaning ps) := by
    show parse c.parser (source ps M) = _
    rw [hc]
    exact parse_source_marks M al hM ps hok ht
  have hq' : ∀ op ∈ ops ++ [SysOp.rand r], Quiet op := by
    intro op hop
    rcases List.mem_append.1 hop with h | h
    · exact hq op h
    · rw [List.mem_singleton.1 h]; trivial
  have := files_decide_prompts c past (ops ++ [.rand r]) hoff hq'
  rw [runSys_rand] at this
  obtain ⟨h1, h2⟩ := this shelf hs fuel ctx (.inl (source ps M)) k
  exact ⟨h1, h2, hp⟩

/-! ## C70, C71 -/

/-- **C70.**  From text and files to probabilities: if the template, with the files' values for its wildcards, has
the distribution `P`, and the state of the random generator is chosen fairly, a random prompt of the template's text
is `t` with the probability that `P` says (after squashing whitespace, if asked). -/
theorem prompt_probability_files (c : SysCfg R S) (hA : c.rng.arith = .exact) (M : Marks) (al : Char → Bool)
    (hM : M.usable al = true) (hc : c.parser = .of M al)
    (past : Sys R S) (ops : List (SysOp R S)) (hoff : past.mgr.shuffle = false) (hq : ∀ op ∈ ops, Quiet op) :
    let s := runSys c ops { past with mgr := Mgr.clearCache past.mgr }
    ∀ shelf, OnShelf c.mgr s.mgr.fs s.mgr.sort s.mgr.dedup shelf →
    ∀ (ps : List Piece), Spec.ok .top ps M = true → '\t' ∉ source ps M → source ps M ≠ [] →
    ∀ (vars : List (Str × Cmd)) (being : List Str) (P : Distr Str),
      Chance (withShelf c shelf) vars being (meaning ps) P →
    ∀ (pr : (S → Prop) → ℝ), Fair c.rng pr → ∀ t : Str,
      pr (fun r => ∃ N, ∀ fuel ≥ N, (samplePrompts (system c) fuel ⟨.random, vars, being⟩ (.inl (source ps M)) 1
        { s with rand := r }).1 = [t]) =
      ((P.map fun s => if c.ignoreWs then squashWhitespace s else s).of t : Rat) := by
  intro s shelf hs ps hok ht hne vars being P h pr hf t
  have hx := text_on_shelf c M al hM hc past ops hoff hq shelf hs ps hok ht hne
  have := prompt_probability (withShelf c shelf) hA vars being (.inl (source ps M)) _
    (.text hne (hx s.rand 0 ⟨.random, vars, being⟩ 0).2.2 h) pr hf t
  have e : (fun r => ∃ N, ∀ fuel ≥ N, (samplePrompts (system c) fuel ⟨.random, vars, being⟩ (.inl (source ps M)) 1
      { s with rand := r }).1 = [t]) = Samples (withShelf c shelf) vars being (.inl (source ps M)) [t] := by
    funext r
    simp only [Samples, List.length_singleton]
    simp only [s, fun fuel => (hx r fuel ⟨.random, vars, being⟩ 1).1]
  rw [e, this]
  rfl

/-- **C71.**  From text and files: if the template remembers nothing between prompts, the probability of a list of
successive prompts is the product of the probabilities of the single prompts. -/
theorem prompts_probability_files [Inhabited S] (c : SysCfg R S) (hA : c.rng.arith = .exact) (M : Marks)
    (al : Char → Bool) (hM : M.usable al = true) (hc : c.parser = .of M al)
    (past : Sys R S) (ops : List (SysOp R S)) (hoff : past.mgr.shuffle = false) (hq : ∀ op ∈ ops, Quiet op) :
    let s := runSys c ops { past with mgr := Mgr.clearCache past.mgr }
    ∀ shelf, OnShelf c.mgr s.mgr.fs s.mgr.sort s.mgr.dedup shelf →
    ∀ (ps : List Piece), Spec.ok .top ps M = true → '\t' ∉ source ps M → source ps M ≠ [] →
    ∀ (vars : List (Str × Cmd)) (being : List Str) (P : Distr Str),
      Chance (withShelf c shelf) vars being (meaning ps) P → Memoryless (withShelf c shelf) shelf vars (meaning ps) →
    ∀ (pr : (S → Prop) → ℝ), Fair c.rng pr → ∀ ts : List Str,
      pr (fun r => ∃ N, ∀ fuel ≥ N, (samplePrompts (system c) fuel ⟨.random, vars, being⟩ (.inl (source ps M))
        ts.length { s with rand := r }).1 = ts) =
      ((ts.map (P.map fun s => if c.ignoreWs then squashWhitespace s else s).of).prod : Rat) := by
  intro s shelf hs ps hok ht hne vars being P h hm pr hf ts
  have hx := text_on_shelf c M al hM hc past ops hoff hq shelf hs ps hok ht hne
  have hp := (hx s.rand 0 ⟨.random, vars, being⟩ 0).2.2
  have := prompts_probability (withShelf c shelf) hA shelf (by
      intro wc w
      show Verif.M.lift (shelf wc) w = _
      cases shelf wc <;> rfl) vars being (.inl (source ps M)) (meaning ps) (.inr ⟨_, rfl, hp⟩) hm _
    (.text hne hp h) pr hf ts
  have e : (fun r => ∃ N, ∀ fuel ≥ N, (samplePrompts (system c) fuel ⟨.random, vars, being⟩ (.inl (source ps M))
      ts.length { s with rand := r }).1 = ts) = Samples (withShelf c shelf) vars being (.inl (source ps M)) ts := by
    funext r
    simp only [Samples]
    simp only [s, fun fuel => (hx r fuel ⟨.random, vars, being⟩ ts.length).1]
  rw [e, this]
  rfl

/-! ## C80 -/

/-- **C80.**  From text and files: a combinatorial text, in which nothing asks for another method, all wildcards have
values in the files and no wildcard may need itself, has finitely many prompts. -/
theorem combinatorial_files_end (c : SysCfg R S) (hc : c.parser.Usable) (hn : NoBlankMarks c.parser)
    (past : Sys R S) (ops : List (SysOp R S)) (hoff : past.mgr.shuffle = false) (hq : ∀ op ∈ ops, Quiet op) :
    let s := runSys c ops { past with mgr := Mgr.clearCache past.mgr }
    ∀ shelf, OnShelf c.mgr s.mgr.fs s.mgr.sort s.mgr.dedup shelf →
    ∀ (ctx : Ctx) (t : Str), ctx.being = [] → ctx.method = .comb →
      AllText (withShelf c shelf) c.parser ctx (.inl t) →
      ¬ CircularWildcard (withShelf c shelf) ctx (.inl t) →
      (∀ d m, Involved (withShelf c shelf) ctx (.inl t) d → d.method = some m → m = .comb) →
      (∀ path m v wc, Involved (withShelf c shelf) ctx (.inl t) (.wild path m v) →
        Named (withShelf c shelf) path wc → shelf wc ≠ .ok []) →
      ∃ K ps, ∀ k, K ≤ k → ∃ N, ∀ fuel ≥ N,
        (samplePrompts (system c) fuel ctx (.inl t) k s).1 = ps ∧
        ((∃ s', (samplePrompts (system c) fuel ctx (.inl t) k s).2 = .stop s') ∨
          ∃ e s', (samplePrompts (system c) fuel ctx (.inl t) k s).2 = .raised e s') := by
  intro s shelf hs ctx t hb hm ha hcirc hmeth hval
  obtain ⟨K, ps, o, ho, hK⟩ := combinatorial_text_ends (withShelf c shelf) c.parser hc hn ctx hb (.inl t) ha
    (files_library c _ _ _ shelf hs) hm hcirc hmeth (by
      intro path m v wc h1 h2
      refine ⟨fun w h => ?_, ?_⟩
      · change M.lift (shelf wc) w = _ at h
        cases hw : shelf wc <;> rw [hw] at h <;> cases h
      · rintro ⟨w, w', h⟩
        change M.lift (shelf wc) w = _ at h
        refine hval path m v wc h1 h2 ?_
        cases hw : shelf wc with
        | ok l => rw [hw] at h; cases h; rfl
        | error e => rw [hw] at h; cases h) s.rand
  refine ⟨K, ps, fun k hk => ?_⟩
  obtain ⟨N, hN⟩ := hK k hk
  refine ⟨N, fun fuel hf => ?_⟩
  obtain ⟨h1, h2⟩ := files_decide_prompts c past ops hoff hq shelf hs fuel ctx (.inl t) k
  change (samplePrompts (system c) fuel ctx (.inl t) k s).1 =
    (samplePrompts (withShelf c shelf) fuel ctx (.inl t) k s.rand).1 at h1
  change SameStop _ (samplePrompts (system c) fuel ctx (.inl t) k s).2
    (samplePrompts (withShelf c shelf) fuel ctx (.inl t) k s.rand).2 at h2
  rw [hN fuel hf] at h1 h2
  refine ⟨h1, ?_⟩
  cases hx : (samplePrompts (system c) fuel ctx (.inl t) k s).2 with
  | stop s' => exact .inl ⟨s', rfl⟩
  | raised e s' => exact .inr ⟨e, s', rfl⟩
  | limit => rw [hx] at h2; rcases ho with ⟨_, rfl⟩ | ⟨_, _, rfl⟩ <;> exact h2.elim
  | fuel => rw [hx] at h2; rcases ho with ⟨_, rfl⟩ | ⟨_, _, rfl⟩ <;> exact h2.elim

/-! ## C87 -/

theorem samplePrompts_text {W : Type} {E : Env W} {t : Str} {c : Cmd} (hne : t ≠ []) (hp : E.parse t = .ok c)
    (hc : c.truthy = true) (fuel : Nat) (ctx : Ctx) (k : Nat) (w : W) :
    samplePrompts E fuel ctx (.inl t) k w = samplePrompts E fuel ctx (.inr c) k w := by
  have : t.isEmpty = false := by cases t <;> simp_all
  simp only [samplePrompts, sampleGen, this, hp, hc]
  rfl

/-- **C87**, random and cyclical sequences, from text and files: in prompt `i` of a template text that stands for a
sequence, sampled randomly or cyclically, every part marked cyclical shows its text number `i`. -/
theorem cyclical_parts_files (c : SysCfg R S) (M : Marks) (al : Char → Bool)
    (hM : M.usable al = true) (hc : c.parser = .of M al)
    (past : Sys R S) (ops : List (SysOp R S)) (hoff : past.mgr.shuffle = false) (hq : ∀ op ∈ ops, Quiet op) :
    let s := runSys c ops { past with mgr := Mgr.clearCache past.mgr }
    ∀ shelf, OnShelf c.mgr s.mgr.fs s.mgr.sort s.mgr.dedup shelf →
    ∀ (ps : List Piece), Spec.ok .top ps M = true → '\t' ∉ source ps M → source ps M ≠ [] →
    ∀ (toks : List Cmd) (sep : Str) (m : Option Method), meaning ps = .seq toks sep m → toks ≠ [] →
    ∀ (ctx : Ctx) (f : List (Str × Cmd) → Cmd → Nat → Str), nest ctx.method m ≠ .comb →
      (∀ n v o, .assign n v true o ∈ toks → Prod (withShelf c shelf) (nest ctx.method m) ctx.vars ctx.being v) →
      (∀ toks' new, Assigned (withShelf c shelf) ctx.vars toks toks' new → ∀ d, d ∈ toks' → d.method = some .cyc →
        Cycles (withShelf c shelf) (new ++ ctx.vars) ctx.being d (f new d)) →
      (∀ toks' new, Assigned (withShelf c shelf) ctx.vars toks toks' new → ∀ d, d ∈ toks' → d.method ≠ some .cyc →
        Prod (withShelf c shelf) (nest ctx.method m) (new ++ ctx.vars) ctx.being d) →
    ∀ k, ∃ toks' new, Assigned (withShelf c shelf) ctx.vars toks toks' new ∧ ∃ N, ∀ fuel ≥ N,
      (samplePrompts (system c) fuel ctx (.inl (source ps M)) k s).1.length = k ∧
      ∀ i t, (samplePrompts (system c) fuel ctx (.inl (source ps M)) k s).1[i]? = some t →
        ∃ strs, ShowsAt (withShelf c shelf) (new ++ ctx.vars) (f new) i toks' strs ∧
          t = squashIf c.ignoreWs (joined sep strs) := by
  intro s shelf hs ps hok ht hne toks sep m hmean htoks ctx f h1 h2 h3 h4 k
  have hx := text_on_shelf c M al hM hc past ops hoff hq shelf hs ps hok ht hne s.rand
  have hp := (hx 0 ctx 0).2.2
  rw [hmean] at hp
  have htr : (Cmd.seq toks sep m).truthy = true := by
    cases toks with
    | nil => exact absurd rfl htoks
    | cons => rfl
  have hE : ∀ fuel, (samplePrompts (system c) fuel ctx (.inl (source ps M)) k s).1 =
      (samplePrompts (withShelf c shelf) fuel ctx (.inr (.seq toks sep m)) k s.rand).1 := fun fuel =>
    (hx fuel ctx k).1.trans (by rw [samplePrompts_text hne hp htr])
  simp only [hE]
  exact cyclical_parts_keep_step (withShelf c shelf) ctx.method ctx.vars ctx.being toks sep m f h1 htoks h2 h3 h4 k s.rand

/-- **C87**, combinatorial sequences, from text and files: there is one prompt per combination of the texts of the
finite parts, and every part marked cyclical moves on by one text per prompt. -/
theorem cyclical_combinations_files (c : SysCfg R S) (M : Marks) (al : Char → Bool)
    (hM : M.usable al = true) (hc : c.parser = .of M al)
    (past : Sys R S) (ops : List (SysOp R S)) (hoff : past.mgr.shuffle = false) (hq : ∀ op ∈ ops, Quiet op) :
    let s := runSys c ops { past with mgr := Mgr.clearCache past.mgr }
    ∀ shelf, OnShelf c.mgr s.mgr.fs s.mgr.sort s.mgr.dedup shelf →
    ∀ (ps : List Piece), Spec.ok .top ps M = true → '\t' ∉ source ps M → source ps M ≠ [] →
    ∀ (toks : List Cmd) (sep : Str) (m : Option Method), meaning ps = .seq toks sep m → toks ≠ [] → Finite m →
    ∀ (vars : List (Str × Cmd)) (being : List Str) (toks' : List Cmd) (new : List (Str × Cmd))
      (texts : Cmd → List Str) (f : Cmd → Nat → Str),
      ListsAssigned (withShelf c shelf) vars being toks toks' new →
      (∀ d ∈ toks', Finite d.method → Lists (withShelf c shelf) (new ++ vars) being d (texts d)) →
      (∀ d ∈ toks', d.method = none → texts d ≠ []) →
      (∀ d ∈ toks', d.method = some .cyc → Cycles (withShelf c shelf) (new ++ vars) being d (f d)) →
      (∀ d ∈ toks', d.method = some .random → Prod (withShelf c shelf) .comb (new ++ vars) being d) →
    ∃ outs : List Str,
      outs.length = (product ((toks'.filter finiteTok).map texts)).length ∧
      (∀ i t p, (product ((toks'.filter finiteTok).map texts))[i]? = some t → outs[i]? = some p →
        ∃ strs, ShowsCombination (withShelf c shelf) (new ++ vars) f toks' i toks' t strs ∧
          p = squashIf c.ignoreWs (joined sep ([] :: strs ++ [[]]))) ∧
      ∃ N, ∀ fuel ≥ N, ∀ k,
        (samplePrompts (system c) fuel ⟨.comb, vars, being⟩ (.inl (source ps M)) k s).1 = outs.take k := by
  intro s shelf hs ps hok ht hne toks sep m hmean htoks hm vars being toks' new texts f h1 h2 h3 h4 h5
  have hx := text_on_shelf c M al hM hc past ops hoff hq shelf hs ps hok ht hne s.rand
  have hp := (hx 0 ⟨.comb, vars, being⟩ 0).2.2
  rw [hmean] at hp
  have htr : (Cmd.seq toks sep m).truthy = true := by
    cases toks with
    | nil => exact absurd rfl htoks
    | cons => rfl
  have hE : ∀ fuel k, (samplePrompts (system c) fuel ⟨.comb, vars, being⟩ (.inl (source ps M)) k s).1 =
      (samplePrompts (withShelf c shelf) fuel ⟨.comb, vars, being⟩ (.inr (.seq toks sep m)) k s.rand).1 :=
    fun fuel k => (hx fuel ⟨.comb, vars, being⟩ k).1.trans (by rw [samplePrompts_text hne hp htr])
  obtain ⟨outs, h6, h7, N, h8⟩ := cyclical_parts_of_combinations (withShelf c shelf) vars being toks toks' new sep m
    texts f hm htoks h1 h2 h3 h4 h5 s.rand
  exact ⟨outs, h6, h7, N, fun fuel hf k => (hE fuel k).trans (h8 fuel hf k).1⟩

/-! ### Examples -/

/-- The manager of the example directory, with a fair random source. -/
def fairSys : SysCfg Nat Tape := ⟨sysCfg.mgr, .default fun _ => false, tape, false, none⟩

/-- The template `{3::a|b}`. -/
def threeToOne : List Piece :=
  [.choice [] none none (.mk [] (some ⟨c!"3", none, []⟩) [.text c!"a"]) [.mk [] none [.text c!"b"]]]

/-- `{3::a|b}` read as text by a system with a fair source: `a`, `b`, `a` comes with probability 9/64. -/
example : ∃ pr : (Tape → Prop) → ℝ, Fair tape pr ∧ source threeToOne = c!"{3::a|b}" ∧
    pr (fun r => ∃ N, ∀ fuel ≥ N, (samplePrompts (system fairSys) fuel ⟨.random, [], []⟩ (.inl (source threeToOne)) 3
      ⟨Mgr.clearCache (newMgr sysFs 0), r⟩).1 = [c!"a", c!"b", c!"a"]) = 9 / 64 := by
  obtain ⟨pr, hf⟩ := fair_tape
  have : Inhabited Tape := ⟨fun _ => ⟨0, by decide +kernel⟩⟩
  have hmean : meaning threeToOne = .variant [(.lit c!"a" none, 3), (.lit c!"b" none, 1)] 1 1 c!"," none := by
    decide +kernel
  refine ⟨pr, hf, by decide +kernel, ?_⟩
  have h := choice_of_texts (withShelf fairSys (shelfOf fairSys.mgr sysFs true true)) [] [] [(c!"a", 3), (c!"b", 1)]
    c!"," (by simp) (by decide +kernel) (by decide +kernel)
  have := prompts_probability_files fairSys rfl {} (fun _ => false) (default_marks_usable _) rfl
    ⟨newMgr sysFs 0, default⟩ [] rfl (by simp) (shelfOf fairSys.mgr sysFs true true) (shelfOf_onShelf _ _ _ _)
    threeToOne (by decide +kernel) (by decide +kernel) (by decide +kernel) [] [] _ (hmean ▸ h)
    (hmean ▸ .choice (by simp) (by simp)) pr hf [c!"a", c!"b", c!"a"]
  refine this.trans ?_
  rw [show (List.map (Distr.of _) [c!"a", c!"b", c!"a"]).prod = (9 / 64 : Rat) by decide +kernel]
  norm_num

/-- The template `__d/a__ {@x|y}`. -/
def besideWild : List Piece :=
  [.wild none [.text c!"d/a"] [], .text c!" ",
    .choice [] (some .cyc) none (.mk [] none [.text c!"x"]) [.mk [] none [.text c!"y"]]]

/-- `__d/a__ {@x|y}` from the files, combinatorially: `blue x`, `green y`. -/
example : source besideWild = c!"__d/a__ {@x|y}" ∧ ∃ N, ∀ fuel ≥ N, ∀ k,
    (samplePrompts (system sysCfg) fuel ⟨.comb, [], []⟩ (.inl (source besideWild)) k
      ⟨Mgr.clearCache (newMgr sysFs 0), 0⟩).1 = [c!"blue x", c!"green y"].take k := by
  refine ⟨by decide +kernel, ?_⟩
  let E := withShelf sysCfg (shelfOf sysCfg.mgr sysFs true true)
  let wild : Cmd := .wild (.inl c!"d/a") none []
  let cyc : Cmd := .variant (literals [(c!"x", 1), (c!"y", 1)]) 1 1 c!"," (some .cyc)
  have hmean : meaning besideWild = .seq [wild, .lit c!" " none, cyc] [] none := by decide +kernel
  have hl : Lists E [] [] wild [c!"blue", c!"green"] := by
    refine Lists.wild (p := c!"d/a") (ps := [])
      (items := [⟨c!"blue", none⟩, ⟨c!"green", none⟩]) (fun t => [t]) (Or.inl rfl) ?_ ?_ (by simp) ?_
    · exact .text (c := .lit c!"d/a" none) (by simp) (by decide +kernel) (.lit (Or.inl rfl))
    · intro w
      have : shelfOf sysCfg.mgr sysFs true true c!"d/a" = .ok [⟨c!"blue", none⟩, ⟨c!"green", none⟩] := by
        decide +kernel
      refine ⟨w, ?_⟩
      show M.lift (shelfOf sysCfg.mgr sysFs true true c!"d/a") w = _
      rw [this]; rfl
    · intro t ht
      have ht : t = c!"blue" ∨ t = c!"green" := by
        have e : iterateWeighted [⟨c!"blue", none⟩, ⟨c!"green", none⟩] = [c!"blue", c!"green"] := by decide +kernel
        rw [e] at ht
        simpa using ht
      rcases ht with rfl | rfl
      · exact .text (c := .lit c!"blue" none) (by simp) (by decide +kernel) (.lit (Or.inl rfl))
      · exact .text (c := .lit c!"green" none) (by simp) (by decide +kernel) (.lit (Or.inl rfl))
  have hx := text_on_shelf sysCfg {} (fun _ => false) (default_marks_usable _) rfl
    ⟨newMgr sysFs 0, 0⟩ [] rfl (by simp) (shelfOf sysCfg.mgr sysFs true true) (shelfOf_onShelf _ _ _ _)
    besideWild (by decide +kernel) (by decide +kernel) (by decide +kernel) 0
  obtain ⟨N, h⟩ := combinatorial_beside_cyclical E [] [] wild _ hl (by simp) c!" " c!"," [(c!"x", 1), (c!"y", 1)]
    (by simp) 0
  refine ⟨N, fun fuel hf k => (hx fuel ⟨.comb, [], []⟩ k).1.trans ?_⟩
  have hp := (hx 0 ⟨.comb, [], []⟩ 0).2.2
  rw [hmean] at hp
  rw [samplePrompts_text (by decide +kernel) hp rfl]
  exact h fuel hf k

/-- The text `__d/a__` with the example directory satisfies the hypotheses of `combinatorial_files_end`. -/
example : ∃ K ps, ∀ k, K ≤ k → ∃ N, ∀ fuel ≥ N,
    (samplePrompts (system sysCfg) fuel ⟨.comb, [], []⟩ (.inl c!"__d/a__") k
      ⟨Mgr.clearCache (newMgr sysFs 0), 0⟩).1 = ps := by
  let shelf := shelfOf sysCfg.mgr sysFs true true
  let E := withShelf sysCfg shelf
  have hsh : shelf c!"d/a" = .ok [⟨c!"blue", none⟩, ⟨c!"green", none⟩] := by decide +kernel
  have hpar : E.parse c!"__d/a__" = .ok (.wild (.inl c!"d/a") none []) ∧ E.parse c!"d/a" = .ok (.lit c!"d/a" none) ∧
      E.parse c!"blue" = .ok (.lit c!"blue" none) ∧ E.parse c!"green" = .ok (.lit c!"green" none) := by decide +kernel
  have name : ∀ wc, Named E (.inl c!"d/a") wc → wc = c!"d/a" := by
    rintro wc ⟨vars, hn⟩
    cases hn with
    | text _ h1 h2 => have := hpar.2.1.symm.trans h1; cases this; cases h2; rfl
  have lits : ∀ wc items i c, Named E (.inl c!"d/a") wc → Values E wc items → i ∈ items → E.parse i.content = .ok c →
      ∃ s, c = .lit s none := by
    rintro wc items i c hn ⟨w, w', hv⟩ hi hp
    rw [name wc hn] at hv
    change M.lift (shelf c!"d/a") w = _ at hv
    rw [hsh] at hv
    cases hv
    simp only [List.mem_cons, List.not_mem_nil, or_false] at hi
    rcases hi with rfl | rfl
    · have := hpar.2.2.1.symm.trans hp; cases this; exact ⟨_, rfl⟩
    · have := hpar.2.2.2.symm.trans hp; cases this; exact ⟨_, rfl⟩
  have part : ∀ c, Part E (.wild (.inl c!"d/a") none []) c → ∃ s, c = .lit s none := by
    intro c h
    cases h with
    | pathText h => have := hpar.2.1.symm.trans h; cases this; exact ⟨_, rfl⟩
    | param h => cases h
    | value h0 h1 h2 h3 => exact lits _ _ _ _ h0 h1 h2 h3
  have occ : ∀ c, Involved E ⟨.comb, [], []⟩ (.inl c!"__d/a__") c →
      (∃ s, c = .lit s none) ∨ c = .wild (.inl c!"d/a") none [] := by
    intro c h
    induction h with
    | template h => cases h
    | text h h' => cases h; have := hpar.1.symm.trans h'; cases this; exact .inr rfl
    | var h => cases h
    | unknown h => cases h
    | part _ hp ih =>
      rcases ih with ⟨s, rfl⟩ | rfl
      · cases hp
      · exact .inl (part _ hp)
  have wild : ∀ path m v, Involved E ⟨.comb, [], []⟩ (.inl c!"__d/a__") (.wild path m v) →
      path = .inl c!"d/a" ∧ m = none ∧ v = [] := by
    intro path m v h
    have := occ _ h
    simpa only [reduceCtorEq, exists_false, false_or, Cmd.wild.injEq] using this
  obtain ⟨K, ps, h⟩ := combinatorial_files_end sysCfg (default_usable _)
    ⟨by decide, by decide, by decide, by decide, by decide⟩ ⟨newMgr sysFs 0, 0⟩ [] rfl (by simp)
    shelf (shelfOf_onShelf _ _ _ _) ⟨.comb, [], []⟩ c!"__d/a__" rfl rfl
    ⟨rfl, ⟨_, rfl⟩, by simp, by intro u h; cases h⟩ (by
      rintro ⟨path, m, v, hi, h⟩
      obtain ⟨rfl, rfl, rfl⟩ := wild _ _ _ hi
      obtain ⟨x, h1, h2⟩ := Relation.TransGen.head'_iff.1 h
      cases h1 with
      | part h1 =>
        obtain ⟨s, rfl⟩ := part _ h1
        rcases Relation.ReflTransGen.cases_head h2 with h | ⟨y, h, _⟩
        · cases h
        · cases h with
          | part h => cases h) (by
      intro c m h hm
      rcases occ c h with ⟨s, rfl⟩ | rfl <;> cases hm) (by
      intro path m v wc h hn
      obtain ⟨rfl, -, -⟩ := wild _ _ _ h
      rw [name wc hn, hsh]
      simp)
  exact ⟨K, ps, fun k hk => (h k hk).imp fun N hN fuel hf => (hN fuel hf).1⟩

end Verif.Props
