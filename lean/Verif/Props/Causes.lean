import Verif.Proofs.Causes
import Verif.Props.System
import Verif.Props.Parser
import Verif.Props.Comments
import Verif.Spec.Demo
/-!
# Properties of exceptions (C77, C78)
-/

namespace Verif.Props
open Verif Verif.Spec

variable {W R S : Type}

/-! ## C77 -/

/-- **C77.**  Whatever exception sampling raises, after however many prompts, has a cause (`Spec.Cause`) in the
template, the variables, the wildcards or the settings. -/
theorem exceptions_have_causes (E : Env W) (ctx : Ctx) (hb : ctx.being = []) (p : Prompt) (fuel k : Nat) (w w' : W)
    (e : Err) (h : (samplePrompts E fuel ctx p k w).2 = .raised e w') : Cause E ctx p e :=
  samplePrompts_cause hb h

/-- **C77.**  Where there is no cause, there is no exception: all prompts, or all there are, are returned (if the
template ends at all). -/
theorem no_cause_no_exception (E : Env W) (ctx : Ctx) (hb : ctx.being = []) (p : Prompt)
    (hno : ∀ e, ¬ Cause E ctx p e) (fuel k : Nat) (w : W) :
    (∃ g w', (samplePrompts E fuel ctx p k w).2 = .limit g w') ∨
    (∃ w', (samplePrompts E fuel ctx p k w).2 = .stop w') ∨
    (samplePrompts E fuel ctx p k w).2 = .fuel := by
  cases h : (samplePrompts E fuel ctx p k w).2 with
  | limit g w' => exact .inl ⟨g, w', rfl⟩
  | stop w' => exact .inr (.inl ⟨w', rfl⟩)
  | fuel => exact .inr (.inr rfl)
  | raised e w' => exact absurd (exceptions_have_causes E ctx hb p fuel k w w' e h) (hno e)

/-- **C77.**  If no variable may need itself, there is no RecursionError. -/
theorem acyclic_no_recursion (E : Env W) (ctx : Ctx) (hb : ctx.being = []) (p : Prompt)
    (hE : ∀ s n, E.parse s ≠ .error (.recursion n)) (hm : ∀ wc w w' n, E.getValues wc w ≠ .err (.recursion n) w')
    (hac : ∀ n d d', Involved E ctx p (.access n d) →
      ¬ Relation.TransGen (Needs E ctx p) (.access n d) (.access n d'))
    (fuel k : Nat) (w w' : W) (n : Str) : (samplePrompts E fuel ctx p k w).2 ≠ .raised (.recursion n) w' := by
  intro h
  cases exceptions_have_causes E ctx hb p fuel k w w' _ h with
  | template _ h => exact hE _ _ h
  | name _ h => exact hE _ _ h
  | value _ _ _ _ h => exact hE _ _ h
  | manager _ _ h => exact hm _ _ _ _ h
  | recursion h1 h2 => exact hac _ _ _ h1 h2

/-- **C77.**  A KeyError names a variable that occurs in the template, and there is no value for unknown variables. -/
theorem key_names_variable (E : Env W) (ctx : Ctx) (hb : ctx.being = []) (p : Prompt)
    (hE : ∀ s n, E.parse s ≠ .error (.key n)) (hm : ∀ wc w w' n, E.getValues wc w ≠ .err (.key n) w')
    (fuel k : Nat) (w w' : W) (n : Str) (h : (samplePrompts E fuel ctx p k w).2 = .raised (.key n) w') :
    E.unknown = none ∧ ∃ d, Involved E ctx p (.access n d) := by
  cases exceptions_have_causes E ctx hb p fuel k w w' _ h with
  | template _ h => exact absurd h (hE _ _)
  | name _ h => exact absurd h (hE _ _)
  | value _ _ _ _ h => exact absurd h (hE _ _)
  | manager _ _ h => exact absurd h (hm _ _ _ _)
  | undefined h1 h2 _ _ => exact ⟨h2, _, h1⟩
  | emptyDefinition h1 h2 _ _ => exact ⟨h2, _, h1⟩

/-- **C77.**  A RuntimeError means that something is barren. -/
theorem runtime_barren (E : Env W) (ctx : Ctx) (hb : ctx.being = []) (p : Prompt)
    (hE : ∀ s, E.parse s ≠ .error .runtime) (hm : ∀ wc w w', E.getValues wc w ≠ .err .runtime w')
    (fuel k : Nat) (w w' : W) (h : (samplePrompts E fuel ctx p k w).2 = .raised .runtime w') : Barren E ctx p := by
  cases exceptions_have_causes E ctx hb p fuel k w w' _ h with
  | template _ h => exact absurd h (hE _)
  | name _ h => exact absurd h (hE _)
  | value _ _ _ _ h => exact absurd h (hE _)
  | manager _ _ h => exact absurd h (hm _ _ _)
  | barren h => exact h

/-! ### Examples: every cause is one -/

/-- The library's parser, and a few wildcards. -/
def causeEnv : Env Nat :=
  { Demo.env with
    parse := parse (.default fun _ => false)
    getValues := fun s => if s = c!"lost" then M.raise .os else pure
      (if s = c!"colors" then [⟨c!"red", none⟩, ⟨c!"blue", none⟩]
       else if s = c!"broken" then [⟨c!"{a", none⟩]
       else if s = c!"faint" then [⟨c!"red", some (1 / 2)⟩, ⟨c!"blue", some (1 / 4)⟩]
       else if s = c!"never" then [⟨c!"red", some 0⟩, ⟨c!"blue", some (-1)⟩]
       else if s = c!"blank" then [⟨c!"red", none⟩, ⟨[], none⟩]
       else []) }

/-- The exception that ends (at most) nine prompts. -/
def causeOf (m : Method) (p : Prompt) (vars : List (Str × Cmd) := []) : Option Err :=
  Demo.errOf (samplePrompts causeEnv 60 ⟨m, vars, []⟩ p 9 0).2

/-- An unclosed brace in the template, in the value of a wildcard, a missing file. -/
example : causeOf .random (.inl c!"a {b") = some .parse ∧ causeOf .random (.inl c!"a __broken__") = some .parse ∧
    causeOf .random (.inl c!"a __lost__") = some .os := by decide +kernel

/-- Undefined variables, empty definitions, recursive definitions. -/
example : causeOf .random (.inl c!"a ${x}") = some (.key c!"x") ∧
    causeOf .random (.inl c!"${x=}a ${x}") = some (.key c!"x") ∧
    causeOf .random (.inl c!"${x=${y}}${y=b ${x}}a ${x}") = some (.recursion c!"x") := by decide +kernel

/-- An assignment on its own, a cyclical wrap. -/
example : causeOf .random (.inl c!"${x=a}") = some .notImplemented ∧
    causeOf .cyc (.inl c!"a %{b...$$c}") = some .notImplemented := by decide +kernel

/-- Options and values that cannot be drawn. -/
example : causeOf .random (.inl c!"{2$$1::a|0::b|0::c}") = some .value ∧
    causeOf .random (.inl c!"a __never__") = some .value := by decide +kernel

/-- Wildcards that cannot be listed: weights below 1, empty values; a wildcard on its own in a variant. -/
example : causeOf .cyc (.inl c!"a __@blank__") = some .runtime ∧
    causeOf .random (.inl c!"a {@__faint__} b") = some .runtime ∧
    causeOf .random (.inl c!"a {__none__} b") = some .runtime := by decide +kernel

/-- An immediate assignment. -/
def immediate (v : Cmd) : Prompt := .inr (.seq [.assign c!"x" v true true, .lit c!"b" none] [] none)

/-- No two different options to combine, nothing to combine, no options, empty parts of wraps, empty names. -/
example : causeOf .comb (.inl c!"${x=!{2$$a|a}}b ${x}") = some .runtime ∧
    causeOf .comb (immediate (.variant [(.lit c!"a" none, 1)] (-2) (-1) c!"," none)) = some .runtime ∧
    causeOf .comb (immediate (.variant [] 1 1 c!"," none)) = some .runtime ∧
    causeOf .comb (immediate (.wrap (.lit c!"a" none) (.seq [] [] none) none)) = some .runtime ∧
    causeOf .random (immediate (.wild (.inl []) none [])) = some .runtime ∧
    causeOf .random (immediate (.wild (.inr (.seq [] [] none)) none [])) = some .runtime := by decide +kernel

/-- A template without any cause: nothing occurs in it but texts and a choice of two of them. -/
example (e : Err) : ¬ Cause causeEnv (Demo.ctx .random) (.inr (Demo.oneOf [c!"a", c!"b"])) e := by
  have occ : ∀ c, Involved causeEnv (Demo.ctx .random) (.inr (Demo.oneOf [c!"a", c!"b"])) c →
      c = Demo.oneOf [c!"a", c!"b"] ∨ c = .lit c!"a" none ∨ c = .lit c!"b" none := by
    intro c h
    induction h with
    | template h => cases h; exact .inl rfl
    | text h => cases h
    | var h => cases h
    | unknown h => cases h
    | part _ hp ih =>
      rcases ih with rfl | rfl | rfl
      · cases hp with
        | option h =>
          simp only [List.map_cons, List.map_nil, List.mem_cons, List.not_mem_nil, or_false] at h
          rcases h with rfl | rfl
          · exact .inr (.inl rfl)
          · exact .inr (.inr rfl)
      · cases hp
      · cases hp
  have meth : ∀ m, Asks causeEnv (Demo.ctx .random) (.inr (Demo.oneOf [c!"a", c!"b"])) m → m = .random := by
    rintro m (h | ⟨c, h, hm⟩)
    · exact h.symm
    · rcases occ c h with rfl | rfl | rfl <;> cases hm
  intro h
  cases h with
  | template h => cases h
  | name h => simpa [Demo.oneOf] using occ _ h
  | value h => simpa [Demo.oneOf] using occ _ h
  | manager h => simpa [Demo.oneOf] using occ _ h
  | undefined h => simpa [Demo.oneOf] using occ _ h
  | emptyDefinition h => simpa [Demo.oneOf] using occ _ h
  | recursion h => simpa [Demo.oneOf] using occ _ h
  | assignment h => simpa [Demo.oneOf] using occ _ h.occurs
  | wrap h => simpa [Demo.oneOf] using occ _ h
  | weights h _ _ hd =>
    have := occ _ h
    simp only [Demo.oneOf, Cmd.variant.injEq, reduceCtorEq, or_false] at this
    obtain ⟨rfl, rfl, rfl, -⟩ := this
    exact hd ⟨by decide, by decide +kernel, by decide +kernel⟩
  | values h => simpa [Demo.oneOf] using occ _ h
  | barren h =>
    cases h with
    | options h => simpa [Demo.oneOf] using occ _ h
    | expansion h =>
      have : ∀ path m v, ¬ Lone causeEnv (Demo.ctx .random) (.inr (Demo.oneOf [c!"a", c!"b"])) path m v := by
        intro path m v h
        induction h with
        | variant h => simpa [Demo.oneOf] using occ _ h
        | value _ _ _ _ _ ih => exact ih
      exact this _ _ _ h
    | listed h => simpa [Demo.oneOf] using occ _ h
    | content h => simpa [Demo.oneOf] using occ _ h
    | nameless h => simpa [Demo.oneOf] using occ _ h
    | emptyName h => simpa [Demo.oneOf] using occ _ h
    | several _ h => cases meth _ h
    | negative _ h => cases meth _ h
    | wrap h => simpa [Demo.oneOf] using occ _ h

/-! ## C78 -/

/-- **C78.**  Sampling a text with the library's parser, NotImplementedError means: one of the texts involved is
nothing but an assignment, or a wrap is to be sampled cyclically. -/
theorem text_not_implemented (E : Env W) (cfg : ParserCfg) (hc : cfg.Usable) (ctx : Ctx) (hb : ctx.being = [])
    (p : Prompt) (hf : FromText E cfg ctx p) (hm : ∀ wc w w', E.getValues wc w ≠ .err .notImplemented w')
    (fuel k : Nat) (w w' : W) (h : (samplePrompts E fuel ctx p k w).2 = .raised .notImplemented w') :
    BareAssignment E ctx p ∨ ((∃ a b m, Involved E ctx p (.wrap a b m)) ∧ Asks E ctx p .cyc) := by
  have hE : ∀ s, E.parse s ≠ .error .notImplemented := by
    intro s h
    rw [hf.parser] at h
    rcases (parsing_ends cfg hc s).2 with ⟨c, h'⟩ | h' | h' <;> rw [h'] at h <;> cases h
  cases exceptions_have_causes E ctx hb p fuel k w w' _ h with
  | template _ h => exact absurd h (hE _)
  | name _ h => exact absurd h (hE _)
  | value _ _ _ _ h => exact absurd h (hE _)
  | manager _ _ h => exact absurd h (hm _ _ _)
  | assignment h => exact .inl (stray_bare hf h rfl)
  | wrap h h' => exact .inr ⟨⟨_, _, _, h⟩, h'⟩

/-- **C78.**  Sampling a text with the library's parser, RuntimeError means: the values of some wildcard all have
weights below 1, or it has no values and is the only option of a variant, or it has an empty value and a list of all
values is needed; or two or more options are to be combined; or a wrap has an empty part. -/
theorem text_runtime (E : Env W) (cfg : ParserCfg) (hc : cfg.Usable) (ctx : Ctx) (hb : ctx.being = [])
    (p : Prompt) (hf : FromText E cfg ctx p) (hm : ∀ wc w w', E.getValues wc w ≠ .err .runtime w')
    (fuel k : Nat) (w w' : W) (h : (samplePrompts E fuel ctx p k w).2 = .raised .runtime w') :
    (∃ path m v wc items, Lone E ctx p path m v ∧ Named E path wc ∧ Values E wc items ∧
      ∀ i ∈ items, i.weight.getD 1 < 1) ∨
    (∃ path m v wc items, Involved E ctx p (.wild path m v) ∧ (Asks E ctx p .cyc ∨ Asks E ctx p .comb) ∧
      Named E path wc ∧ Values E wc items ∧ items ≠ [] ∧
      ((∀ i ∈ items, i.weight.getD 1 < 1) ∨ ∃ i ∈ items, i.content = [])) ∨
    (∃ opts lo hi sep m, Involved E ctx p (.variant opts lo hi sep m) ∧ Asks E ctx p .comb ∧ 2 ≤ lo) ∨
    (∃ a b m, Involved E ctx p (.wrap a b m) ∧ Asks E ctx p .comb ∧ (Hollow a ∨ Hollow b)) := by
  have hE : ∀ s, E.parse s ≠ .error .runtime := by
    intro s h
    rw [hf.parser] at h
    rcases (parsing_ends cfg hc s).2 with ⟨c, h'⟩ | h' | h' <;> rw [h'] at h <;> cases h
  cases runtime_barren E ctx hb p hE hm fuel k w w' h with
  | options h => exact absurd rfl (formed_variant (occurs_formed hf h)).1
  | expansion h1 h2 h3 h4 => exact .inl ⟨_, _, _, _, _, h1, h2, h3, h4⟩
  | listed h1 h2 h3 h4 h5 h6 => exact .inr (.inl ⟨_, _, _, _, _, h1, h2, h3, h4, h5, .inl h6⟩)
  | content h1 h2 h3 h4 h5 h6 =>
    exact .inr (.inl ⟨_, _, _, _, _, h1, h2, h3, h4, List.ne_nil_of_mem h5, .inr ⟨_, h5, h6⟩⟩)
  | nameless h => exact absurd rfl (formed_named (occurs_formed hf h))
  | emptyName h h' =>
    have := shapedPath_truthy (formed_path (occurs_formed hf h))
    unfold Hollow at h'
    rw [h'] at this
    cases this
  | several h1 h2 _ h4 => exact .inr (.inr (.inl ⟨_, _, _, _, _, h1, h2, by omega⟩))
  | negative h1 _ h3 =>
    have := (formed_variant (occurs_formed hf h1))
    omega
  | wrap h1 h2 h3 => exact .inr (.inr (.inr ⟨_, _, _, h1, h2, h3⟩))

/-- The kinds of exceptions sampling a text raises by itself. -/
def SamplingError : Err → Prop
  | .parse | .attr | .key _ | .recursion _ | .notImplemented | .value | .runtime => True
  | _ => False

/-- **C78.**  Sampling a text with the library's parser raises only ParseException, AttributeError, KeyError,
RecursionError, NotImplementedError, ValueError and RuntimeError, unless the wildcard manager raises something else. -/
theorem text_exceptions (E : Env W) (cfg : ParserCfg) (hc : cfg.Usable) (ctx : Ctx) (hb : ctx.being = [])
    (p : Prompt) (hf : FromText E cfg ctx p) (fuel k : Nat) (w w' : W) (e : Err)
    (h : (samplePrompts E fuel ctx p k w).2 = .raised e w') :
    SamplingError e ∨ ∃ path m v wc w w', Involved E ctx p (.wild path m v) ∧ Named E path wc ∧
      E.getValues wc w = .err e w' := by
  have hE : ∀ s e, E.parse s = .error e → SamplingError e := by
    intro s e h
    rw [hf.parser] at h
    rcases (parsing_ends cfg hc s).2 with ⟨c, h'⟩ | h' | h' <;> rw [h'] at h <;> cases h <;> trivial
  cases exceptions_have_causes E ctx hb p fuel k w w' _ h with
  | template _ h => exact .inl (hE _ _ h)
  | name _ h => exact .inl (hE _ _ h)
  | value _ _ _ _ h => exact .inl (hE _ _ h)
  | manager h1 h2 h3 => exact .inr ⟨_, _, _, _, _, _, h1, h2, h3⟩
  | undefined | emptyDefinition | recursion | assignment | wrap | weights | values | barren => exact .inl trivial

/-- **C78.**  From text and files: after any history of the manager, an exception has its cause in the template and in
what the files say, and if no directory lists a name twice and all files can be opened, it is one of those seven. -/
theorem exceptions_from_files (c : SysCfg R S) (hc : c.parser.Usable)
    (past : Sys R S) (ops : List (SysOp R S)) (hoff : past.mgr.shuffle = false) (hq : ∀ op ∈ ops, Quiet op) :
    let s := runSys c ops { past with mgr := Mgr.clearCache past.mgr }
    ∀ shelf, OnShelf c.mgr s.mgr.fs s.mgr.sort s.mgr.dedup shelf →
    ∀ (fuel : Nat) (ctx : Ctx) (t : Str) (k : Nat) (s' : Sys R S) (e : Err), ctx.being = [] →
      (∀ b ∈ ctx.vars, Shaped true b.2) → (∀ u, c.unknown = some u → Shaped true u) →
      (samplePrompts (system c) fuel ctx (.inl t) k s).2 = .raised e s' →
      Cause (withShelf c shelf) ctx (.inl t) e ∧ (UniqueNames s.mgr.fs → Openable s.mgr.fs → SamplingError e) := by
  intro s shelf hs fuel ctx t k s' e hb hv hu h
  have he := (files_decide_prompts c past ops hoff hq shelf hs fuel ctx (.inl t) k).2
  change SameStop _ (samplePrompts (system c) fuel ctx (.inl t) k s).2 _ at he
  rw [h] at he
  cases hx : (samplePrompts (withShelf c shelf) fuel ctx (.inl t) k s.rand).2 with
  | limit => rw [show (runSys c ops { past with mgr := Mgr.clearCache past.mgr }) = s from rfl, hx] at he; exact he.elim
  | stop => rw [show (runSys c ops { past with mgr := Mgr.clearCache past.mgr }) = s from rfl, hx] at he; exact he.elim
  | fuel => rw [show (runSys c ops { past with mgr := Mgr.clearCache past.mgr }) = s from rfl, hx] at he; exact he.elim
  | raised e' r =>
    rw [show (runSys c ops { past with mgr := Mgr.clearCache past.mgr }) = s from rfl, hx] at he
    obtain ⟨rfl, -⟩ := he
    refine ⟨exceptions_have_causes _ ctx hb _ fuel k _ _ _ hx, fun hun hop => ?_⟩
    rcases text_exceptions (withShelf c shelf) c.parser hc ctx hb _ ⟨rfl, ⟨t, rfl⟩, hv, hu⟩ fuel k _ _ _ hx with
      h | ⟨path, m, v, wc, w, w', -, -, h⟩
    · exact h
    · obtain ⟨_, out, _, _, h'⟩ := wildcards_readable c.mgr s.mgr.fs s.mgr.sort s.mgr.dedup hun hop shelf hs wc
      change M.lift (shelf wc) w = _ at h
      rw [h'] at h
      cases h

/-- The hypotheses, for the examples above. -/
example (m : Method) (t : Str) : FromText causeEnv (.default fun _ => false) (Demo.ctx m) (.inl t) :=
  ⟨rfl, ⟨t, rfl⟩, by simp [Demo.ctx], by simp [causeEnv, Demo.env]⟩

example : (ParserCfg.default fun _ => false).Usable := default_usable _

/-- After a history, with files. -/
example : Demo.errOf (samplePrompts (system sysCfg) 40 (Demo.ctx .random) (.inl c!"__b__ ${x}") 9
    (runSys sysCfg sysOps ⟨newMgr sysFs 0, 0⟩)).2 = some (.key c!"x") := by decide +kernel

end Verif.Props
