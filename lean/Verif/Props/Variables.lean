import Verif.Proofs.Assign
import Verif.Spec.Demo
/-!
# Variables and nesting of methods: C15, C16, C17, C18, C20 (rule)
-/

namespace Verif.Props
open Verif Spec
variable {W : Type}

/-! ## C17 -/

/-- **C17.**  Sampling a variable access: if the context, the default or the value for unknown
variables provides a command `c` (in this order; an empty sequence or variant counts as missing),
sampling it is sampling `c`, with the variable marked as being resolved. -/
theorem variable_lookup (E : Env W) (ctx : Ctx) (name : Str) (d : Option Cmd) (c : Cmd)
    (h : Resolves E.unknown ctx.vars name d c) (hb : name ∉ ctx.being) :
    mkGen E.unknown ctx (.access name d) =
      mkGen E.unknown { ctx with being := name :: ctx.being } c := by
  obtain ⟨o, ho⟩ := chain_total E.unknown ctx.vars (name :: ctx.being) c
  rw [mkGen_outcome (.step h hb ho), mkGen_outcome (ctx := { ctx with being := name :: ctx.being }) ho]
  cases o <;> rfl

/-- **C17**, for whole runs: the prompts of the access are the prompts of that command (unless it is an
empty sequence or variant, which only the configured unknown value can be). -/
theorem variable_sampled (E : Env W) (ctx : Ctx) (name : Str) (d : Option Cmd) (c : Cmd)
    (h : Resolves E.unknown ctx.vars name d c) (hb : name ∉ ctx.being) (hc : c.truthy = true)
    (fuel k : Nat) (w : W) :
    samplePrompts E fuel ctx (.inr (.access name d)) k w =
      samplePrompts E fuel { ctx with being := name :: ctx.being } (.inr c) k w := by
  have h1 : (Cmd.access name d).truthy = true := rfl
  unfold samplePrompts sampleGen
  simp only [h1, hc, variable_lookup E ctx name d c h hb]

/-- **C17.**  Otherwise KeyError is raised and nothing is produced. -/
theorem undefined_variable (E : Env W) (ctx : Ctx) (name : Str) (d : Option Cmd)
    (h : Undefined E.unknown ctx.vars name d) (fuel k : Nat) (w : W) :
    samplePrompts E fuel ctx (.inr (.access name d)) k w = ([], .raised (.key name) w) := by
  unfold samplePrompts sampleGen
  simp only [Cmd.truthy, mkGen_outcome (.undefined h)]
  rfl

/-- **C17.**  One of the two cases always applies, and the command is unique. -/
theorem variable_lookup_cases (unknown : Option Cmd) (vars : List (Str × Cmd)) (name : Str)
    (d : Option Cmd) :
    (∃! c, Resolves unknown vars name d c) ∧ ¬ Undefined unknown vars name d ∨
    Undefined unknown vars name d ∧ ¬ ∃ c, Resolves unknown vars name d c := by
  cases h : resolveVar unknown vars name d with
  | ok c =>
    left
    refine ⟨⟨c, resolveVar_ok h, ?_⟩, ?_⟩
    · intro c' hc'
      rw [resolveVar_of hc'] at h
      cases h; rfl
    · intro hu
      rw [(resolveVar_error_iff (e := .key name)).2 ⟨rfl, hu⟩] at h
      cases h
  | error e =>
    right
    obtain ⟨rfl, hu⟩ := resolveVar_error_iff.1 h
    refine ⟨hu, ?_⟩
    rintro ⟨c, hc⟩
    rw [resolveVar_of hc] at h
    cases h

/-- Non-vacuity: the context value wins over the default; the default is used otherwise. -/
example : (samplePrompts Demo.env 9 ⟨.random, [(c!"x", .lit c!"v" none)], []⟩
    (.inr (.access c!"x" (some (.lit c!"d" none)))) 2 0).1 = [c!"v", c!"v"] := by decide +kernel
example : (samplePrompts Demo.env 9 (Demo.ctx .random)
    (.inr (.access c!"x" (some (.lit c!"d" none)))) 2 0).1 = [c!"d", c!"d"] := by decide +kernel
example : Undefined Demo.env.unknown [(c!"y", .lit c!"v" none)] c!"x" none := ⟨rfl, by simp [List.lookup]⟩

/-- A variable defined as the empty sequence (`${x=}`) is treated as undefined even if the access
has a default: sampling `${x:d}` raises KeyError. -/
theorem empty_value_is_undefined :
    Undefined Demo.env.unknown [(c!"x", .seq [] [] none)] c!"x" (some (.lit c!"d" none)) :=
  ⟨rfl, rfl⟩

/-! ## C18 -/

/-- **C18.**  Following variable definitions ends, in exactly one way, for every set of definitions. -/
theorem resolution_terminates (unknown : Option Cmd) (vars : List (Str × Cmd)) (being : List Str)
    (c : Cmd) : ∃! o, Chain unknown vars being c o := by
  obtain ⟨o, ho⟩ := chain_total unknown vars being c
  exact ⟨o, ho, fun o' ho' => Chain.det ho' ho⟩

/-- **C18.**  If it reaches a variable that is already being resolved, sampling raises
RecursionError with its name and produces nothing. -/
theorem recursion_detected (E : Env W) (ctx : Ctx) (c : Cmd) (name : Str)
    (h : Chain E.unknown ctx.vars ctx.being c (.recursion name)) (fuel k : Nat) (w : W) :
    samplePrompts E fuel ctx (.inr c) k w = ([], .raised (.recursion name) w) := by
  have ht : c.truthy = true := by cases h <;> rfl
  unfold samplePrompts sampleGen
  simp only [ht, mkGen_outcome h]
  rfl

/-- **C18.**  And only then. -/
theorem recursion_only_then (E : Env W) (ctx : Ctx) (c : Cmd) (name : Str)
    (h : mkGen E.unknown ctx c = .error (.recursion name)) :
    Chain E.unknown ctx.vars ctx.being c (.recursion name) := by
  obtain ⟨o, ho⟩ := chain_total E.unknown ctx.vars ctx.being c
  rw [mkGen_outcome ho] at h
  cases o with
  | target b c' =>
    exfalso
    cases c' <;> simp only [outcomeGen] at h <;> try cases h
    split at h <;> cases h
  | recursion n => cases h; exact ho
  | undefined n => cases h

/-- Non-vacuity: `${a}` with `a` defined as `${b}` and `b` as `${a}`. -/
example : Chain none [(c!"a", .access c!"b" none), (c!"b", .access c!"a" none)] []
    (.access c!"a" none) (.recursion c!"a") :=
  .step (.var rfl rfl) (by simp) (.step (.var rfl rfl) (by decide) (.loop (.var rfl rfl) (by simp)))

/-! ## C15 -/

/-- **C15.**  Let the last assignment of `v` in a sequence be immediate (and effective: plain, or
`v` is not defined around the sequence).  Then there is one text `t` of the assigned expression such
that in every prompt of the run, every access to `v` among the tokens of the sequence shows `t`. All
tokens of all prompts are texts under one and the same binding `vars'` of the variables, which binds
`v` to the literal `t`. -/
theorem immediate_sampled_once (E : Env W) (fuel : Nat) (ctx : Ctx) (pre post : List Cmd) (v : Str)
    (e : Cmd) (ow : Bool) (sep : Str) (m : Option Method) (k : Nat) (w : W)
    (hlast : ∀ c ∈ post, ∀ e' i o, c ≠ .assign v e' i o)
    (how : ow = true ∨ ctx.vars.lookup v = none) :
    let prompts :=
      (samplePrompts E fuel ctx (.inr (.seq (pre ++ .assign v e true ow :: post) sep m)) k w).1
    prompts = [] ∨ ∃ (t : Str) (toks : List Cmd) (vars' : List (Str × Cmd)),
      Lang E ctx.vars e t ∧
      Assigned E ctx.vars (pre ++ .assign v e true ow :: post) toks vars' ∧
      (∃ m', vars'.lookup v = some (.lit t m')) ∧
      ∀ s ∈ prompts, ∃ strs, LangAll E (vars' ++ ctx.vars) toks strs ∧
        (s = squashIf E.ignoreWs (joined sep strs) ∨
         s = squashIf E.ignoreWs (joined sep ([] :: strs ++ [[]]))) ∧
        ∀ (i : Nat) d, toks[i]? = some (Cmd.access v d) → strs[i]? = some t := by
  intro prompts
  have htr : (Cmd.seq (pre ++ .assign v e true ow :: post) sep m).truthy = true := by
    simp [Cmd.truthy]
  obtain ⟨n, hn⟩ := samplePrompts_cmd E fuel ctx _ k w htr (mkGen_seq E.unknown ctx _ sep m)
  have hx : ∀ c ∈ post, c.assigns v = false := by
    intro c hc
    cases c with
    | assign n e' i o =>
      simp only [Cmd.assigns, beq_eq_false_iff_ne]
      rintro rfl
      exact hlast _ hc e' i o rfl
    | _ => rfl
  rcases seq_fixed_collect (E := E) (ctx := ctx.withMethod (effMethod ctx.method m))
    (toks := pre ++ .assign v e true ow :: post) (sep := sep) (m := m) n k w with h | ⟨toks, new, hA, hs⟩
  · left
    show (samplePrompts E fuel ctx (.inr _) k w).1 = []
    rw [hn, h]; rfl
  · right
    obtain ⟨c, hc, hl⟩ := assigned_last hA hx
    have hc' : ∃ t m', c = .lit t m' ∧ Lang E ctx.vars e t := by
      cases hc with
      | keep hk =>
        rcases how with h | h
        · cases h
        · exact absurd (h.symm.trans hk) (by simp)
      | literal _ => exact ⟨_, _, rfl, .lit⟩
      | immediate _ ht => exact ⟨_, _, rfl, ht⟩
    obtain ⟨t, m', rfl, ht⟩ := hc'
    refine ⟨t, toks, new, ht, hA, ⟨m', hl⟩, ?_⟩
    intro s hs'
    have hs'' : s ∈ (samplePrompts E fuel ctx (.inr _) k w).1 := hs'
    rw [hn] at hs''
    obtain ⟨s0, h0, rfl⟩ := List.mem_map.1 hs''
    obtain ⟨strs, h1, h2⟩ := hs s0 h0
    refine ⟨strs, h1, ?_, ?_⟩
    · rcases h2 with rfl | rfl
      · exact Or.inl rfl
      · exact Or.inr rfl
    · intro i d hi
      obtain ⟨s1, h3, h4⟩ := langAll_get h1 hi
      have hl' : (new ++ ctx.vars).lookup v = some (.lit t m') := by
        rw [List.lookup_append, hl]; rfl
      cases h4 with
      | access hres hlang =>
        have := resolveVar_of hres
        have h5 := resolveVar_of (Resolves.var (unknown := E.unknown) (d := d) hl' rfl)
        have h6 := this.symm.trans h5
        cases h6
        cases hlang
        exact h3

/-- Non-vacuity: `${v=!{a|b|c}}${v}-${v}` shows the same text twice in every prompt. -/
example : (samplePrompts Demo.env 30 (Demo.ctx .random)
    (.inr (.seq [.assign c!"v" (Demo.oneOf [c!"a", c!"b", c!"c"]) true true, .access c!"v" none,
      .lit c!"-" none, .access c!"v" none] [] none)) 3 1).1 = [c!"a-a", c!"a-a", c!"a-a"] := by
  decide +kernel

/-! ## C16 -/

/-- The last assignment of `x` among the tokens: its value and whether it is a plain (`=`) one. -/
def lastAssignment (x : Str) : List Cmd → Option (Cmd × Bool)
  | [] => none
  | .assign n v _ ow :: cs =>
    match lastAssignment x cs with
    | some r => some r
    | none => if n = x then some (v, ow) else none
  | _ :: cs => lastAssignment x cs

/-- The value of `x` the tokens of a sequence see, if the surrounding value is `outer`. -/
def seenValue (outer : Option Cmd) (x : Str) (toks : List Cmd) : Option Cmd :=
  match lastAssignment x toks with
  | none => outer
  | some (v, true) => some v
  | some (v, false) => match outer with | some u => some u | none => some v

/-- The assigned variables of a sequence without immediate assignments. -/
def newVars (vars : List (Str × Cmd)) : List Cmd → List (Str × Cmd)
  | [] => []
  | .assign n v _ ow :: cs => newVars vars cs ++
      [(n, match (if ow then none else vars.lookup n) with | some u => u | none => v)]
  | _ :: cs => newVars vars cs

theorem newVars_lookup (vars : List (Str × Cmd)) (toks : List Cmd) (x : Str) :
    (newVars vars toks ++ vars).lookup x = seenValue (vars.lookup x) x toks := by
  have key : (newVars vars toks).lookup x = (lastAssignment x toks).map fun p =>
      match (if p.2 then none else vars.lookup x) with | some u => u | none => p.1 := by
    induction toks with
    | nil => rfl
    | cons c toks ih =>
      cases c with
      | assign n v i ow =>
        simp only [newVars, lastAssignment]
        rw [List.lookup_append, ih]
        cases lastAssignment x toks with
        | some r => rfl
        | none =>
          by_cases he : n = x
          · subst he; simp
          · have : (x == n) = false := by rw [beq_eq_false_iff_ne]; exact fun e => he e.symm
            simp [List.lookup_cons, this, he]
      | _ => exact ih
  rw [List.lookup_append, key]
  unfold seenValue
  rcases lastAssignment x toks with _ | ⟨v, ow⟩
  · rfl
  · cases ow with
    | true => rfl
    | false => cases vars.lookup x <;> rfl

theorem assigns_plain_eq (E : Env W) (r : Recs W) (ctx : Ctx) (toks : List Cmd)
    (h : ∀ n v i o, .assign n v i o ∈ toks → i = false) (w : W) :
    r.assigns E ctx toks w = .ok (toks.filter (fun c => !c.isAssign), newVars ctx.vars toks) w := by
  induction toks with
  | nil => rfl
  | cons c toks ih =>
    have ih := ih (fun n v i o hm => h n v i o (by simp [hm]))
    cases c with
    | assign n v i ow =>
      have hi := h n v i ow (by simp)
      subst hi
      simp only [Recs.assigns]
      rw [M.bind_of_ok (a := match (if ow then none else ctx.vars.lookup n) with
        | some u => u | none => v) (w' := w), M.bind_of_ok ih]
      · rfl
      · unfold Recs.assign
        cases ow
        · cases ctx.vars.lookup n <;> rfl
        · rfl
    | _ => simp only [Recs.assigns]; rw [M.bind_of_ok ih]; rfl

/-- **C16.**  Sampling a sequence with (non-immediate) assignments is sampling the sequence without
the assignments in a context in which every variable `x` has the value `seenValue ... x`: that of
the last assignment of `x` in the sequence if it is a plain one or `x` has no value around the
sequence, otherwise the surrounding one. -/
theorem sequence_assignments (E : Env W) (fuel : Nat) (ctx : Ctx) (toks : List Cmd) (sep : Str)
    (m : Option Method) (k : Nat) (w : W)
    (himm : ∀ n v i o, .assign n v i o ∈ toks → i = false)
    (hne : toks.filter (fun c => !c.isAssign) ≠ []) :
    ∃ vars', (∀ x, vars'.lookup x = seenValue (ctx.vars.lookup x) x toks) ∧
      samplePrompts E fuel ctx (.inr (.seq toks sep m)) (k + 1) w =
      samplePrompts E fuel { ctx with vars := vars' }
        (.inr (.seq (toks.filter (fun c => !c.isAssign)) sep m)) (k + 1) w := by
  refine ⟨newVars ctx.vars toks ++ ctx.vars, newVars_lookup _ _, ?_⟩
  have htoks : toks ≠ [] := by rintro rfl; exact hne rfl
  have hnil : newVars (newVars ctx.vars toks ++ ctx.vars) (toks.filter fun c => !c.isAssign) = [] ∧
      (toks.filter fun c => !c.isAssign).filter (fun c => !c.isAssign) =
        toks.filter fun c => !c.isAssign := by
    refine ⟨?_, by rw [List.filter_filter]; simp⟩
    generalize newVars ctx.vars toks ++ ctx.vars = vars
    clear himm hne htoks
    induction toks with
    | nil => rfl
    | cons c toks ih => cases c <;> simpa [Cmd.isAssign, newVars] using ih
  have hnext : ∀ n ctx' w, ctx'.vars = ctx.vars →
      nextG E n (.start ctx' (.seq toks sep m)) w =
      nextG E n (.start (ctx'.withVars (newVars ctx.vars toks))
        (.seq (toks.filter fun c => !c.isAssign) sep m)) w := by
    intro n ctx' w hv
    cases n with
    | zero => rfl
    | succ n =>
      have h1 := assigns_plain_eq E (recs E n) ctx' toks himm w
      have h2 := assigns_plain_eq E (recs E n) (ctx'.withVars (newVars ctx.vars toks))
        (toks.filter fun c => !c.isAssign) (by
          intro a b i o hm
          have := (List.mem_filter.1 hm).2
          simp [Cmd.isAssign] at this) w
      have h3 : (ctx'.withVars (newVars ctx.vars toks)).vars = newVars ctx.vars toks ++ ctx.vars := by
        simp [Ctx.withVars, hv]
      rw [h3, hnil.1, hnil.2] at h2
      rw [hv] at h1
      have h4 : (ctx'.withVars (newVars ctx.vars toks)).withVars [] =
        ctx'.withVars (newVars ctx.vars toks) := rfl
      simp only [nextG, recs, stepG, startG]
      have h5 : ∀ {α β γ : Type} {x : M W α} {a : α} (f : α → M W β) (g : β → M W γ), x w = .ok a w →
          ((x >>= f) >>= g) w = (f a >>= g) w := by
        intro α β γ x a f g hx
        show M.bind _ _ w = M.bind _ _ w
        unfold M.bind
        rw [M.bind_of_ok hx]
      rw [h5 _ _ h1, h5 _ _ h2]
      rfl
  have hcol : ∀ n ctx' w, ctx'.vars = ctx.vars →
      collect E n (k + 1) (.start ctx' (.seq toks sep m)) w =
      collect E n (k + 1) (.start (ctx'.withVars (newVars ctx.vars toks))
        (.seq (toks.filter fun c => !c.isAssign) sep m)) w := by
    intro n ctx' w hv
    simp only [collect, hnext n ctx' w hv]
  have hcolS : ∀ n ctx' w, ctx'.vars = ctx.vars →
      collect E n (k + 1) (.squash (.start ctx' (.seq toks sep m))) w =
      collect E n (k + 1) (.squash (.start (ctx'.withVars (newVars ctx.vars toks))
        (.seq (toks.filter fun c => !c.isAssign) sep m))) w := by
    intro n ctx' w hv
    cases n with
    | zero => rfl
    | succ n =>
      have hs : ∀ g, nextG E (n + 1) (.squash g) w = (nextG E n g >>= fun o => match o with
          | none => pure none
          | some (v, g') => pure (some (squashWhitespace v, .squash g'))) w := fun _ => rfl
      simp only [collect, hs, M.bind_eq, hnext n ctx' w hv]
  have ht1 : (Cmd.seq toks sep m).truthy = true := by
    cases toks with
    | nil => exact absurd rfl htoks
    | cons _ _ => rfl
  have ht2 : (Cmd.seq (toks.filter fun c => !c.isAssign) sep m).truthy = true := by
    revert hne
    generalize (toks.filter fun c => !c.isAssign) = l
    cases l with
    | nil => exact fun h => absurd rfl h
    | cons _ _ => exact fun _ => rfl
  unfold samplePrompts sampleGen
  simp only [ht1, ht2, Bool.not_true, Bool.false_eq_true, if_false, mkGen_seq]
  by_cases hw : E.ignoreWs = true
  · simp only [hw, if_true]; exact hcolS fuel (ctx.withMethod (effMethod ctx.method m)) w rfl
  · simp only [hw, Bool.false_eq_true, if_false]; exact hcol fuel (ctx.withMethod (effMethod ctx.method m)) w rfl

/-- Non-vacuity: `?=` keeps the surrounding value of `a`, plain assignments overwrite, the last one
wins. -/
example : (samplePrompts Demo.env 9 ⟨.random, [(c!"a", .lit c!"1" none)], []⟩
    (.inr (.seq [.assign c!"a" (.lit c!"2" none) false false, .access c!"a" none] [] none)) 1 0).1 =
    [c!"1"] := by decide +kernel
example : (samplePrompts Demo.env 9 ⟨.random, [(c!"a", .lit c!"1" none)], []⟩
    (.inr (.seq [.assign c!"a" (.lit c!"2" none) false true, .access c!"a" none,
      .assign c!"a" (.lit c!"3" none) false true] [] none)) 1 0).1 = [c!"3"] := by decide +kernel

/-- `${a=x}${a?=y}${a}` shows `y`: the conditional assignment does not see the plain one in front
of it, only values from around the sequence. -/
theorem conditional_after_plain :
    seenValue none c!"a" [.assign c!"a" (.lit c!"x" none) false true,
      .assign c!"a" (.lit c!"y" none) false false, .access c!"a" none] = some (.lit c!"y" none) := by
  decide +kernel

/-! ## C20 -/

/-- **C20**, the rule: the method in which the sampler of a command that is not a variable runs. -/
theorem nesting_rule (E : Env W) (ctx : Ctx) (c : Cmd) (g : Gen) (hc : ∀ n d, c ≠ .access n d)
    (h : mkGen E.unknown ctx c = .ok g) :
    g = .start ⟨nest ctx.method c.method, ctx.vars, ctx.being⟩ c := by
  rw [mkGen_outcome (.target hc)] at h
  rw [← effMethod_eq_nest]
  cases c <;> simp only [outcomeGen] at h <;> try (first | (cases h; rfl) | cases h)
  split at h
  · cases h
  · cases h; rfl

theorem nextG_unmark (E : Env W) (ctx : Ctx) (c : Cmd) (n : Nat) :
    nextG E n (.start ctx (unmark c)) = nextG E n (.start ctx c) := by
  cases n with
  | zero => rfl
  | succ n => cases c <;> rfl

/-- **C20**, for whole runs: sampling a command in a context is sampling the command without its own
method in the context whose method is chosen by the rule. -/
theorem own_method_is_context_method (E : Env W) (fuel : Nat) (ctx : Ctx) (c : Cmd)
    (hc : ∀ n d, c ≠ .access n d) (k : Nat) (w : W) :
    (samplePrompts E fuel ctx (.inr c) k w).1 =
      (samplePrompts E fuel { ctx with method := nest ctx.method c.method } (.inr (unmark c)) k w).1 ∧
    (0 < k → (samplePrompts E fuel ctx (.inr c) k w).2 =
      (samplePrompts E fuel { ctx with method := nest ctx.method c.method } (.inr (unmark c)) k w).2) := by
  cases k with
  | zero =>
    refine ⟨?_, fun h => absurd h (lt_irrefl 0)⟩
    unfold samplePrompts
    split <;> split <;> rfl
  | succ k =>
    suffices hs : samplePrompts E fuel ctx (.inr c) (k + 1) w =
        samplePrompts E fuel { ctx with method := nest ctx.method c.method } (.inr (unmark c)) (k + 1) w by
      rw [hs]; exact ⟨rfl, fun _ => rfl⟩
    have ht : (unmark c).truthy = c.truthy := by cases c <;> rfl
    have hc' : ∀ n d, unmark c ≠ .access n d := by
      intro n d h
      cases c <;> simp [unmark] at h
      exact hc _ _ rfl
    have hn : nest (nest ctx.method c.method) (unmark c).method = nest ctx.method c.method := by
      cases c <;> rfl
    have key : ∀ c' : Ctx, collect E fuel (k + 1) (if E.ignoreWs then .squash (.start c' c) else .start c' c) w =
        collect E fuel (k + 1) (if E.ignoreWs then .squash (.start c' (unmark c)) else .start c' (unmark c)) w := by
      intro c'
      cases E.ignoreWs with
      | false => simp only [Bool.false_eq_true, if_false, collect, nextG_unmark]
      | true =>
        have h2 : nextG E fuel (.squash (.start c' c)) = nextG E fuel (.squash (.start c' (unmark c))) := by
          cases fuel with
          | zero => rfl
          | succ n =>
            have h3 := nextG_unmark E c' c n
            unfold nextG at h3
            simp only [nextG, recs, stepG, h3]
        simp only [if_true, collect, h2]
    unfold samplePrompts sampleGen
    simp only [ht]
    cases c.truthy with
    | false => rfl
    | true =>
      simp only [Bool.not_true, Bool.false_eq_true, if_false]
      rw [mkGen_outcome (.target hc), mkGen_outcome (.target hc')]
      cases c with
      | access n d => exact absurd rfl (hc n d)
      | assign => rfl
      | wrap a b m =>
        simp only [outcomeGen, unmark, effMethod_eq_nest, Cmd.method] at key ⊢
        have hno : nest (nest ctx.method m) none = nest ctx.method m := rfl
        rw [hno]
        by_cases hcy : nest ctx.method m = .cyc
        · simp only [if_pos hcy]
        · simp only [if_neg hcy]
          exact key _
      | _ =>
        simp only [outcomeGen, unmark, effMethod_eq_nest, Cmd.method] at key ⊢
        exact key _

end Verif.Props
