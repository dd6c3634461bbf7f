import Verif.Proofs.Hangs
import Verif.Proofs.HangsText
import Verif.Props.Causes
import Verif.Props.Symbols
/-!
# Properties of hangs (C79, C80)
-/

namespace Verif.Props
open Verif Verif.Spec

variable {W R S : Type}

/-! ## C79 -/

/-- **C79.**  If sampling never answers, whatever time it is given, there is a cause (`Spec.Endless`) in the template,
the variables, the wildcards or the settings. -/
theorem hangs_have_causes (E : Env W) (ctx : Ctx) (hb : ctx.being = []) (p : Prompt) (k : Nat) (w : W)
    (h : ∀ n, (samplePrompts E n ctx p k w).2 = .fuel) : Endless E ctx p := by
  by_contra hno
  obtain ⟨n, hn⟩ := samplePrompts_answers hno hb k w
  exact hn n (Nat.le_refl n) (h n)

/-- **C79.**  Where there is no cause, sampling always answers: with prompts, the end, or an exception. -/
theorem no_cause_no_hang (E : Env W) (ctx : Ctx) (hb : ctx.being = []) (p : Prompt) (hno : ¬ Endless E ctx p)
    (k : Nat) (w : W) : ∃ n, ∀ m, n ≤ m → (samplePrompts E m ctx p k w).2 ≠ .fuel :=
  samplePrompts_answers hno hb k w

/-- **C79.**  Where there is a cause neither of exceptions nor of hangs, all prompts asked for, or all there are, are
returned. -/
theorem no_cause_prompts (E : Env W) (ctx : Ctx) (hb : ctx.being = []) (p : Prompt) (hno : ¬ Endless E ctx p)
    (hne : ∀ e, ¬ Cause E ctx p e) (k : Nat) (w : W) : ∃ n, ∀ m, n ≤ m →
      (∃ g w', (samplePrompts E m ctx p k w).2 = .limit g w') ∨ ∃ w', (samplePrompts E m ctx p k w).2 = .stop w' := by
  obtain ⟨n, hn⟩ := samplePrompts_answers hno hb k w
  refine ⟨n, fun m hm => ?_⟩
  rcases no_cause_no_exception E ctx hb p hne m k w with h | h | h
  · exact .inl h
  · exact .inr h
  · exact absurd h (hn m hm)

/-- **C79.**  If finitely many commands are involved, an endless chain of commands that need each other contains a
wildcard that needs itself. -/
theorem chain_needs_wildcard (E : Env W) (ctx : Ctx) (p : Prompt) (hf : {c | Involved E ctx p c}.Finite)
    (f : Nat → Cmd) (h : Descent E ctx p f) :
    CircularWildcard E ctx p :=
  descent_finite hf h

/-- **C79.**  A template without wildcards, sampled randomly, always answers. -/
theorem random_without_wildcards (E : Env W) (ctx : Ctx) (hb : ctx.being = []) (p : Prompt)
    (hw : ∀ path m v, ¬ Involved E ctx p (.wild path m v)) (hm : ctx.method = .random) (hc : ¬ Asks E ctx p .cyc)
    (k : Nat) (w : W) : ∃ n, ∀ m, n ≤ m → (samplePrompts E m ctx p k w).2 ≠ .fuel := by
  refine samplePrompts_answers (fun h => ?_) hb k w
  cases h with
  | descent h =>
    obtain ⟨_, _, _, h, _⟩ := descent_finite (involved_finite hw) h
    exact hw _ _ _ h
  | selection _ h => exact hc h
  | manager h => exact hw _ _ _ h
  | content h => exact hw _ _ _ h
  | dry h => exact hw _ _ _ h
  | loose h => rw [hm] at h; cases h
  | missing h => rw [hm] at h; cases h

/-- **C79.**  Sampling a text with the library's parser, with finitely many values of wildcards: if it never answers,
then a wildcard may need itself, or one of the other causes is there (`Spec.TextEndless`). -/
theorem text_hangs (E : Env W) (cfg : ParserCfg) (hc : cfg.Usable) (hs : NoBlankMarks cfg) (ctx : Ctx)
    (hb : ctx.being = []) (p : Prompt) (hf : AllText E cfg ctx p) (hl : (library E).Finite) (k : Nat) (w : W)
    (h : ∀ n, (samplePrompts E n ctx p k w).2 = .fuel) : TextEndless E ctx p :=
  endless_text hc hs hf hl (hangs_have_causes E ctx hb p k w h)

/-- The values of wildcards that are read from files are finitely many. -/
theorem files_library (c : SysCfg R S) (fs : FNode) (sort dedup : Bool) (shelf : Str → Except Err (List Item))
    (hs : OnShelf c.mgr fs sort dedup shelf) : (library (withShelf c shelf)).Finite := by
  refine (((rootMapColls c.mgr.lib fs c.mgr.roots).finite_toSet).biUnion (t := fun q =>
    {s | ∃ i ∈ (collVal fs q.2).getD [], i.content = s}) fun q _ => ?_).subset ?_
  · exact (List.finite_toSet (((collVal fs q.2).getD []).map (·.content))).subset fun s ⟨i, hi, h⟩ =>
      h ▸ List.mem_map_of_mem (f := (·.content)) hi
  · rintro s ⟨wc, items, i, ⟨w, w', hv⟩, hi, rfl⟩
    have hsh : shelf wc = .ok items := by
      change M.lift (shelf wc) w = _ at hv
      cases h : shelf wc with
      | ok v => rw [h] at hv; cases hv; rfl
      | error e => rw [h] at hv; cases hv
    obtain ⟨q, hq, vs, hvs, hiv⟩ := shelf_item c.mgr fs sort dedup hs hsh hi
    refine Set.mem_biUnion (x := q) hq ⟨i, ?_, rfl⟩
    rw [(collVal_holds _ _ _).2 hvs]
    exact hiv

/-- **C79.**  From text and files: after any history of the manager, if sampling never answers, there is such a cause
in the template and in what the files say. -/
theorem hangs_from_files (c : SysCfg R S) (hc : c.parser.Usable) (hn : NoBlankMarks c.parser)
    (past : Sys R S) (ops : List (SysOp R S)) (hoff : past.mgr.shuffle = false) (hq : ∀ op ∈ ops, Quiet op) :
    let s := runSys c ops { past with mgr := Mgr.clearCache past.mgr }
    ∀ shelf, OnShelf c.mgr s.mgr.fs s.mgr.sort s.mgr.dedup shelf →
    ∀ (ctx : Ctx) (t : Str) (k : Nat), ctx.being = [] → AllText (withShelf c shelf) c.parser ctx (.inl t) →
      (∀ n, (samplePrompts (system c) n ctx (.inl t) k s).2 = .fuel) → TextEndless (withShelf c shelf) ctx (.inl t) := by
  intro s shelf hs ctx t k hb hf h
  refine text_hangs (withShelf c shelf) c.parser hc hn ctx hb _ hf (files_library c _ _ _ shelf hs) k s.rand fun n => ?_
  have he := (files_decide_prompts c past ops hoff hq shelf hs n ctx (.inl t) k).2
  change SameStop _ (samplePrompts (system c) n ctx (.inl t) k s).2 (samplePrompts (withShelf c shelf) n ctx (.inl t) k
    s.rand).2 at he
  rw [h n] at he
  cases hx : (samplePrompts (withShelf c shelf) n ctx (.inl t) k s.rand).2 with
  | fuel => rfl
  | limit => rw [hx] at he; exact he.elim
  | stop => rw [hx] at he; exact he.elim
  | raised => rw [hx] at he; exact he.elim

/-! ## C80 -/

/-- **C80.**  Where there is no cause, a combinatorial iteration ends: from some number on, asking for more prompts does
not give more, and the iteration stops or raises an exception. -/
theorem combinatorial_ends (E : Env W) (ctx : Ctx) (hb : ctx.being = []) (p : Prompt) (hm : ctx.method = .comb)
    (hno : ¬ Endless E ctx p) (w : W) :
    ∃ K ps o, ((∃ w', o = Stop.stop w') ∨ ∃ e w', o = Stop.raised e w') ∧
      ∀ k, K ≤ k → ∃ n, ∀ m, n ≤ m → samplePrompts E m ctx p k w = (ps, o) :=
  samplePrompts_ends hno hb hm w

/-- **C80.**  A combinatorial template without wildcards, in which nothing asks for another method, has finitely many
prompts. -/
theorem combinatorial_without_wildcards (E : Env W) (ctx : Ctx) (hb : ctx.being = []) (p : Prompt)
    (hm : ctx.method = .comb) (hw : ∀ path m v, ¬ Involved E ctx p (.wild path m v))
    (hc : ∀ c m, Involved E ctx p c → c.method = some m → m = .comb) (w : W) :
    ∃ K ps o, ((∃ w', o = Stop.stop w') ∨ ∃ e w', o = Stop.raised e w') ∧
      ∀ k, K ≤ k → ∃ n, ∀ m, n ≤ m → samplePrompts E m ctx p k w = (ps, o) := by
  refine samplePrompts_ends (fun h => ?_) hb hm w
  cases h with
  | descent h =>
    obtain ⟨_, _, _, h, _⟩ := descent_finite (involved_finite hw) h
    exact hw _ _ _ h
  | selection _ h =>
    rcases h with h | ⟨c, h1, h2⟩
    · rw [hm] at h; cases h
    · cases hc c _ h1 h2
  | manager h => exact hw _ _ _ h
  | content h => exact hw _ _ _ h
  | dry h => exact hw _ _ _ h
  | loose _ h1 h2 h3 => exact h3 (hc _ _ h1.involved h2)
  | missing _ h => exact hw _ _ _ h

/-- **C80.**  A combinatorial text whose wildcards have finitely many values, none of which needs its own wildcard, with
values for all wildcards and no symbol of another method, has finitely many prompts. -/
theorem combinatorial_text_ends (E : Env W) (cfg : ParserCfg) (hc : cfg.Usable) (hs : NoBlankMarks cfg) (ctx : Ctx)
    (hb : ctx.being = []) (p : Prompt) (hf : AllText E cfg ctx p) (hl : (library E).Finite) (hm : ctx.method = .comb)
    (hcirc : ¬ CircularWildcard E ctx p) (hmeth : ∀ c m, Involved E ctx p c → c.method = some m → m = .comb)
    (hval : ∀ path m v wc, Involved E ctx p (.wild path m v) → Named E path wc →
      (∀ w, E.getValues wc w ≠ .fuel) ∧ ¬ Values E wc []) (w : W) :
    ∃ K ps o, ((∃ w', o = Stop.stop w') ∨ ∃ e w', o = Stop.raised e w') ∧
      ∀ k, K ≤ k → ∃ n, ∀ m, n ≤ m → samplePrompts E m ctx p k w = (ps, o) := by
  have hask : ∀ m, Asks E ctx p m → m = .comb := by
    rintro m (h | ⟨c, h1, h2⟩)
    · exact h ▸ hm
    · exact hmeth c m h1 h2
  refine samplePrompts_ends (fun h => ?_) hb hm w
  cases endless_text hc hs hf hl h with
  | circular h => exact hcirc h
  | selection _ h => cases hask _ h
  | manager h1 h2 h3 => exact (hval _ _ _ _ h1 h2).1 _ h3
  | content _ h => cases hask _ h
  | dry _ h => cases hask _ h
  | loose _ h1 h2 h3 => exact h3 (hmeth _ _ h1.involved h2)
  | missing _ h1 h2 h3 => exact (hval _ _ _ _ h1 h2).2 h3

/-! ### Examples: the causes are causes -/

example : NoBlankMarks (.default fun _ => false) := ⟨by decide, by decide, by decide, by decide, by decide⟩

/-- A wildcard whose only value is the wildcard itself, and one with an empty value. -/
def hangEnv : Env Nat :=
  { Demo.env with
    parse := parse (.default fun _ => false)
    getValues := fun s => pure (if s = c!"a" then [⟨c!"__a__", none⟩] else if s = c!"blank" then [⟨[], none⟩] else []) }

theorem hang_parse : hangEnv.parse c!"__a__" = .ok (.wild (.inl c!"a") none []) ∧
    hangEnv.parse c!"a" = .ok (.lit c!"a" none) := by decide +kernel

/-- No two different options: `{2$$a|a}` cyclically never answers. -/
example (n : Nat) : (samplePrompts hangEnv n (Demo.ctx .cyc)
    (.inr (.variant [(.lit c!"a" none, 1), (.lit c!"a" none, 1)] 2 2 c!"," none)) 1 0).2 = .fuel := by
  have h : boundCombos [Cmd.lit c!"a" none, .lit c!"a" none] 2 2 = [] := by decide +kernel
  have h2 : adjustBounds 2 2 2 = (2, 2) := by decide +kernel
  have h3 : sampleGen hangEnv (Demo.ctx .cyc)
      (.inr (.variant [(.lit c!"a" none, 1), (.lit c!"a" none, 1)] 2 2 c!"," none)) =
      .ok (.start (Demo.ctx .cyc) (.variant [(.lit c!"a" none, 1), (.lit c!"a" none, 1)] 2 2 c!"," none)) := rfl
  rcases n with _ | _ | n
  · rfl
  · rfl
  · simp only [samplePrompts, h3, collect, nextG, recs, stepG, startG]
    rw [M.bind_of_ok (a := .cycVar c!"," []) (w' := 0)]
    · rfl
    · simp [Demo.ctx, h2, h]

theorem hang_random (n : Nat) :
    (∀ w, (recs hangEnv n).G (.start (Demo.ctx .random) (.wild (.inl c!"a") none [])) w = .fuel) ∧
    ∀ buf w, (recs hangEnv n).G (.randWild (Demo.ctx .random) [⟨c!"__a__", none⟩] buf) w = .fuel := by
  have h1 : sampleGen hangEnv (Demo.ctx .random) (.inl c!"__a__") =
      .ok (.start (Demo.ctx .random) (.wild (.inl c!"a") none [])) := by
    simp only [sampleGen, hang_parse]; rfl
  have h2 : sampleGen hangEnv (Demo.ctx .random) (.inl c!"a") =
      .ok (.start (Demo.ctx .random) (.lit c!"a" none)) := by
    simp only [sampleGen, hang_parse]; rfl
  have h3 : ∀ buf w, weightedNext hangEnv.rng [⟨c!"__a__", none⟩] buf w = .ok (c!"__a__", []) (w + 1) := by
    intro buf w
    have hv : hasVariedWeights [⟨c!"__a__", none⟩] = false := by decide +kernel
    simp only [weightedNext, hv]
    exact M.bind_of_ok (a := c!"__a__") (w' := w + 1) (by simp [Rng.choice, hangEnv, Demo.env, Demo.rng, Nat.mod_one])
  induction n with
  | zero => exact ⟨fun w => rfl, fun buf w => rfl⟩
  | succ n ih =>
    refine ⟨fun w => ?_, fun buf w => ?_⟩
    · simp only [recs, stepG, startG, Recs.sampleFirst, h2]
      cases n with
      | zero => rfl
      | succ n => exact ih.2 [] w
    · simp only [recs, stepG]
      rw [M.bind_of_ok (h3 buf w)]
      simp only [h1]
      change M.bind ((recs hangEnv n).G _) _ (w + 1) = _
      simp [M.bind, ih.1]

/-- A wildcard whose only value is the wildcard: `__a__` never answers. -/
example (n : Nat) : (samplePrompts hangEnv n (Demo.ctx .random) (.inl c!"__a__") 1 0).2 = .fuel := by
  have h1 : sampleGen hangEnv (Demo.ctx .random) (.inl c!"__a__") =
      .ok (.start (Demo.ctx .random) (.wild (.inl c!"a") none [])) := by
    simp only [sampleGen, hang_parse]; rfl
  simp only [samplePrompts, h1, collect, nextG, (hang_random n).1]

/-- It is an endless chain. -/
example : Endless hangEnv (Demo.ctx .random) (.inl c!"__a__") := by
  refine .descent (f := fun _ => .wild (.inl c!"a") none []) ⟨.text rfl hang_parse.1, fun i => .part ?_, ?_⟩
  · refine .value (wc := c!"a") (items := [⟨c!"__a__", none⟩]) ⟨[], .text (by decide) hang_parse.2 .lit⟩ ⟨0, 0, rfl⟩
      (List.mem_singleton.2 rfl) hang_parse.1
  · intro i j n d d' _ h
    cases h

/-- The combinatorial template `{__none__|a}`, where there is no wildcard of that name. -/
def missingOption : Cmd := .variant [(.wild (.inl c!"none") none [], 1), (.lit c!"a" none, 1)] 1 1 c!"," none

/-- After the name of the wildcard, nothing comes: not even the other option. -/
theorem hang_missing (n : Nat) (w : Nat) (pend : List (Nat × List Cmd)) :
    (recs Demo.env n).G (.combVarIn (Demo.ctx .comb) c!"," [[c!"__none__"]] pend 1
      (.finIn (Demo.ctx .comb) [] (.rep c!"__none__") c!"__none__" .done)) w = .fuel := by
  induction n with
  | zero => rfl
  | succ n ih =>
    have hp : (recs Demo.env n).P (.finIn (Demo.ctx .comb) [] (.rep c!"__none__") c!"__none__" .done) w = .fuel ∨
        (recs Demo.env n).P (.finIn (Demo.ctx .comb) [] (.rep c!"__none__") c!"__none__" .done) w =
          .ok (some ([c!"__none__"], .finIn (Demo.ctx .comb) [] (.rep c!"__none__") c!"__none__" .done)) w := by
      rcases n with _ | _ | _ | _ | n
      · exact .inl rfl
      · exact .inl rfl
      · exact .inl rfl
      · exact .inl rfl
      · exact .inr rfl
    simp only [recs, stepG]
    rcases hp with hp | hp
    · change M.bind ((recs Demo.env n).P _) _ w = _
      simp [M.bind, hp]
    · rw [M.bind_of_ok hp]
      simp only []
      rw [if_neg (by decide +kernel)]
      exact ih

example (n : Nat) : (samplePrompts Demo.env (n + 20) (Demo.ctx .comb) (.inr missingOption) 2 0) =
    ([c!"__none__"], .fuel) := by
  have h1 : sampleGen Demo.env (Demo.ctx .comb) (.inr missingOption) = .ok (.start (Demo.ctx .comb) missingOption) := rfl
  have h2 : boundCombos [Cmd.wild (.inl c!"none") none [], .lit c!"a" none] 1 1 =
      [(1, [.wild (.inl c!"none") none []]), (1, [.lit c!"a" none])] := by decide +kernel
  have h3 : adjustBounds 2 1 1 = (1, 1) := by decide +kernel
  have h4 : nextG Demo.env 20 (.start (Demo.ctx .comb) missingOption) 0 =
      .ok (some (c!"__none__", .combVarIn (Demo.ctx .comb) c!"," [[c!"__none__"]] [(1, [.lit c!"a" none])] 1
      (.finIn (Demo.ctx .comb) [] (.rep c!"__none__") c!"__none__" .done))) 0 := by
    change (startG Demo.env (recs Demo.env 19) _ _ >>= fun g => (recs Demo.env 19).G g) 0 = _
    rw [M.bind_of_ok (a := .combVar (Demo.ctx .comb) c!"," [] [(1, [.wild (.inl c!"none") none []]),
      (1, [.lit c!"a" none])]) (w' := 0)]
    · rfl
    · simp [startG, missingOption, Demo.ctx, h3, h2]
  have h6 := nextG_fuel_mono Demo.env (show 20 ≤ n + 20 by omega) _ _ (by rw [h4]; simp)
  rw [h4] at h6
  simp only [samplePrompts, h1, collect, h6]
  simp only [nextG, hang_missing]

/-- A choice and a wildcard. -/
def colourful : Cmd := .seq [Demo.oneOf [c!"a", c!"b"], .lit c!" " none, .wild (.inl c!"colors") none []] [] none

/-- It has no cause of hangs, randomly or combinatorially. -/
theorem colourful_not_endless (m : Method) (hm : m ≠ .cyc) : ¬ Endless Demo.env (Demo.ctx m) (.inr colourful) := by
  have occ : ∀ c, Involved Demo.env (Demo.ctx m) (.inr colourful) c →
      c = colourful ∨ c = Demo.oneOf [c!"a", c!"b"] ∨ (∃ s, c = .lit s none) ∨ c = .wild (.inl c!"colors") none [] := by
    intro c h
    induction h with
    | template h => cases h; exact .inl rfl
    | text h => cases h
    | var h => cases h
    | unknown h => cases h
    | part _ hp ih =>
      rcases ih with rfl | rfl | ⟨s, rfl⟩ | rfl
      · cases hp with
        | token h =>
          simp only [List.mem_cons, List.not_mem_nil, or_false] at h
          rcases h with rfl | rfl | rfl
          · exact .inr (.inl rfl)
          · exact .inr (.inr (.inl ⟨_, rfl⟩))
          · exact .inr (.inr (.inr rfl))
      · cases hp with
        | option h =>
          simp only [List.map_cons, List.map_nil, List.mem_cons, List.not_mem_nil, or_false] at h
          rcases h with rfl | rfl <;> exact .inr (.inr (.inl ⟨_, rfl⟩))
      · cases hp
      · cases hp with
        | pathText h => cases h; exact .inr (.inr (.inl ⟨_, rfl⟩))
        | param h => cases h
        | value _ _ _ h => cases h; exact .inr (.inr (.inl ⟨_, rfl⟩))
  have none' : ∀ c, Involved Demo.env (Demo.ctx m) (.inr colourful) c → c.method = none := by
    intro c h
    rcases occ c h with rfl | rfl | ⟨s, rfl⟩ | rfl <;> rfl
  have meth : ∀ m', Asks Demo.env (Demo.ctx m) (.inr colourful) m' → m' = m := by
    rintro m' (h | ⟨c, h, hm⟩)
    · exact h.symm
    · rw [none' c h] at hm; cases hm
  have name : ∀ path m' v wc, Involved Demo.env (Demo.ctx m) (.inr colourful) (.wild path m' v) → Named Demo.env path wc →
      wc = c!"colors" := by
    intro path m' v wc h hn
    have := occ _ h
    simp only [colourful, Demo.oneOf, reduceCtorEq, exists_false, false_or, Cmd.wild.injEq] at this
    obtain ⟨rfl, -, -⟩ := this
    obtain ⟨vars, hn⟩ := hn
    cases hn with
    | text _ h1 h2 => cases h1; cases h2; rfl
  have vals : ∀ path m' v wc items, Involved Demo.env (Demo.ctx m) (.inr colourful) (.wild path m' v) →
      Named Demo.env path wc → Values Demo.env wc items → items = [⟨c!"red", none⟩, ⟨c!"blue", none⟩] := by
    intro path m' v wc items h hn hv
    rw [name path m' v wc h hn] at hv
    obtain ⟨w, w', hv⟩ := hv
    cases hv
    rfl
  have lone : ∀ path m' v, ¬ Lone Demo.env (Demo.ctx m) (.inr colourful) path m' v := by
    intro path m' v h
    induction h with
    | variant h => simpa [Demo.oneOf, colourful] using occ _ h
    | value _ _ _ _ _ ih => exact ih
  intro h
  cases h with
  | @descent f h =>
    let r : Cmd → Nat := fun c => match c with | .lit .. => 0 | .seq .. => 2 | _ => 1
    have dec : ∀ i, r (f (i + 1)) < r (f i) := by
      intro i
      have h1 := occ _ (h.involved i)
      have h2 := h.next i
      generalize f (i + 1) = y at *
      generalize f i = x at *
      cases h2 with
      | part hp =>
        rcases h1 with rfl | rfl | ⟨s, rfl⟩ | rfl
        · cases hp with
          | token h =>
            simp only [List.mem_cons, List.not_mem_nil, or_false] at h
            rcases h with rfl | rfl | rfl <;> decide
        · cases hp with
          | option h =>
            simp only [List.map_cons, List.map_nil, List.mem_cons, List.not_mem_nil, or_false] at h
            rcases h with rfl | rfl <;> decide
        · cases hp
        · cases hp with
          | pathText h => cases h; decide
          | param h => cases h
          | value _ _ _ h => cases h; exact Nat.zero_lt_one
      | _ => simp [colourful, Demo.oneOf] at h1
    have d0 : r (f 1) < r (f 0) := dec 0
    have d1 : r (f 2) < r (f 1) := dec 1
    have d2 : r (f 3) < r (f 2) := dec 2
    have : r (f 0) ≤ 2 := by
      show (match f 0 with | .lit .. => 0 | .seq .. => 2 | _ => 1) ≤ 2
      split <;> omega
    omega
  | selection _ h => exact hm (meth _ h).symm
  | manager _ _ h => cases h
  | content h _ h2 h3 h4 h5 =>
    rw [vals _ _ _ _ _ h h2 h3] at h4
    simp only [List.mem_cons, List.not_mem_nil, or_false] at h4
    rcases h4 with rfl | rfl <;> cases h5
  | dry _ hr hc =>
    have hr := meth _ hr
    subst hr
    cases hc with
    | template h => cases h
    | name _ h => cases h
    | value _ _ _ _ h => cases h
    | manager _ _ h => cases h
    | barren h =>
      cases h with
      | options h => simpa [Demo.oneOf, colourful] using occ _ h
      | expansion h => exact lone _ _ _ h
      | listed _ h => rcases h with h | h <;> cases meth _ h
      | content _ h => rcases h with h | h <;> cases meth _ h
      | nameless h => simpa [Demo.oneOf, colourful] using occ _ h
      | emptyName h => simpa [Demo.oneOf, colourful] using occ _ h
      | several _ h => cases meth _ h
      | negative _ h => cases meth _ h
      | wrap h => simpa [Demo.oneOf, colourful] using occ _ h
  | loose _ h1 h2 =>
    have : Involved Demo.env (Demo.ctx m) (.inr colourful) _ := h1.involved
    rw [none' _ this] at h2
    cases h2
  | missing _ h1 h2 h3 => cases vals _ _ _ _ _ h1 h2 h3

/-- So its prompts end: there are four. -/
example : (samplePrompts Demo.env 60 (Demo.ctx .comb) (.inr colourful) 9 0).1 =
      [c!"a red", c!"a blue", c!"b red", c!"b blue"] ∧
    Demo.stopped (samplePrompts Demo.env 60 (Demo.ctx .comb) (.inr colourful) 9 0).2 = true := by decide +kernel

/-- The same template as a text, with the library's parser. -/
def paintEnv : Env Nat := { Demo.env with parse := parse (.default fun _ => false) }

theorem paint_parse : paintEnv.parse c!"{a|b} __colors__" = .ok colourful ∧
    paintEnv.parse c!"colors" = .ok (.lit c!"colors" none) ∧ paintEnv.parse c!"red" = .ok (.lit c!"red" none) ∧
    paintEnv.parse c!"blue" = .ok (.lit c!"blue" none) := by decide +kernel

/-- It satisfies the hypotheses of `combinatorial_text_ends`. -/
example (w : Nat) : ∃ K ps o, ((∃ w', o = Stop.stop w') ∨ ∃ e w', o = Stop.raised e w') ∧
    ∀ k, K ≤ k → ∃ n, ∀ m, n ≤ m →
      samplePrompts paintEnv m (Demo.ctx .comb) (.inl c!"{a|b} __colors__") k w = (ps, o) := by
  have vals : ∀ wc items, Values paintEnv wc items → items = [⟨c!"red", none⟩, ⟨c!"blue", none⟩] ∨ items = [] := by
    rintro wc items ⟨w, w', h⟩
    by_cases hw : wc = c!"colors"
    · subst hw
      cases h
      exact .inl rfl
    · refine .inr ?_
      change Res.ok (if wc = c!"colors" then _ else []) w = _ at h
      rw [if_neg hw] at h
      cases h
      rfl
  have lits : ∀ wc items i c, Values paintEnv wc items → i ∈ items → paintEnv.parse i.content = .ok c →
      ∃ s, c = .lit s none := by
    intro wc items i c h hi hp
    rcases vals wc items h with rfl | rfl
    · simp only [List.mem_cons, List.not_mem_nil, or_false] at hi
      rcases hi with rfl | rfl
      · have := paint_parse.2.2.1.symm.trans hp; cases this; exact ⟨_, rfl⟩
      · have := paint_parse.2.2.2.symm.trans hp; cases this; exact ⟨_, rfl⟩
    · cases hi
  have occ : ∀ c, Involved paintEnv (Demo.ctx .comb) (.inl c!"{a|b} __colors__") c →
      c = colourful ∨ c = Demo.oneOf [c!"a", c!"b"] ∨ (∃ s, c = .lit s none) ∨ c = .wild (.inl c!"colors") none [] := by
    intro c h
    induction h with
    | template h => cases h
    | text h h' => cases h; have := paint_parse.1.symm.trans h'; cases this; exact .inl rfl
    | var h => cases h
    | unknown h => cases h
    | part _ hp ih =>
      rcases ih with rfl | rfl | ⟨s, rfl⟩ | rfl
      · cases hp with
        | token h =>
          simp only [List.mem_cons, List.not_mem_nil, or_false] at h
          rcases h with rfl | rfl | rfl
          · exact .inr (.inl rfl)
          · exact .inr (.inr (.inl ⟨_, rfl⟩))
          · exact .inr (.inr (.inr rfl))
      · cases hp with
        | option h =>
          simp only [List.map_cons, List.map_nil, List.mem_cons, List.not_mem_nil, or_false] at h
          rcases h with rfl | rfl <;> exact .inr (.inr (.inl ⟨_, rfl⟩))
      · cases hp
      · cases hp with
        | pathText h => have := paint_parse.2.1.symm.trans h; cases this; exact .inr (.inr (.inl ⟨_, rfl⟩))
        | param h => cases h
        | value _ h1 h2 h3 => exact .inr (.inr (.inl (lits _ _ _ _ h1 h2 h3)))
  have wild : ∀ path m v, Involved paintEnv (Demo.ctx .comb) (.inl c!"{a|b} __colors__") (.wild path m v) →
      path = .inl c!"colors" ∧ v = [] := by
    intro path m v h
    have := occ _ h
    simp only [colourful, Demo.oneOf, reduceCtorEq, exists_false, false_or, Cmd.wild.injEq] at this
    exact ⟨this.1, this.2.2⟩
  refine combinatorial_text_ends paintEnv (.default fun _ => false) (default_usable _)
    ⟨by decide, by decide, by decide, by decide, by decide⟩ (Demo.ctx .comb) rfl _
    ⟨rfl, ⟨_, rfl⟩, by simp [Demo.ctx], by intro u h; cases h⟩ ?_ rfl ?_ ?_ ?_ w
  · refine (Set.Finite.insert c!"red" (Set.finite_singleton c!"blue")).subset ?_
    rintro s ⟨wc, items, i, h, hi, rfl⟩
    rcases vals wc items h with rfl | rfl
    · simp only [List.mem_cons, List.not_mem_nil, or_false] at hi
      rcases hi with rfl | rfl
      · exact .inl rfl
      · exact .inr rfl
    · cases hi
  · rintro ⟨path, m, v, hi, h⟩
    obtain ⟨rfl, rfl⟩ := wild _ _ _ hi
    obtain ⟨x, h1, h2⟩ := Relation.TransGen.head'_iff.1 h
    have : ∃ s, x = .lit s none := by
      cases h1 with
      | part h1 =>
        cases h1 with
        | pathText h => have := paint_parse.2.1.symm.trans h; cases this; exact ⟨_, rfl⟩
        | param h => cases h
        | value _ h1 h2 h3 => exact lits _ _ _ _ h1 h2 h3
    obtain ⟨s, rfl⟩ := this
    rcases Relation.ReflTransGen.cases_head h2 with h | ⟨y, h, _⟩
    · cases h
    · cases h with
      | part h => cases h
  · intro c m h hm
    rcases occ c h with rfl | rfl | ⟨s, rfl⟩ | rfl <;> cases hm
  · intro path m v wc h hn
    refine ⟨fun w h => (by cases h), fun ⟨w, w', hv⟩ => ?_⟩
    obtain ⟨rfl, rfl⟩ := wild _ _ _ h
    obtain ⟨vars, hn⟩ := hn
    cases hn with
    | text _ h1 h2 =>
      have := paint_parse.2.1.symm.trans h1
      cases this
      cases h2
      cases hv

end Verif.Props
