import Verif.Proofs.Symbols
import Verif.Props.System
import Verif.Props.Schedule
import Verif.Props.Language
import Verif.Props.Deterministic
/-!
# Properties of the characters of templates and prompts (C74, C75)
-/

namespace Verif.Props
open Verif Verif.Spec

variable {W R S : Type}

/-! ## C74 -/

private theorem symbol_env (E : Env W) (cfg : ParserCfg) (hE : E.parse = parse cfg) (m : Method)
    (hvals : ∀ wc items, Values E wc items → ∀ i ∈ items, methodSymbol m ∉ i.content) :
    MadeEnv E (· ≠ methodSymbol m) (fun x => methodSymbol x ≠ methodSymbol m) where
  parse s c hs hc := by
    rw [hE] at hc
    refine parse_made (K := (· ≠ methodSymbol m)) ?_ ?_ hs hc <;> cases m <;> decide
  values wc items hv i hi x hx e := hvals wc items hv i hi (e ▸ hx)

/-- **C74.**  A sampling method is only used if somebody asked for it: if neither the text of a template nor any
value of a wildcard contains the symbol of a method, no command that is ever reached from the template asks for this
method. -/
theorem methods_need_symbols (E : Env W) (cfg : ParserCfg) (hE : E.parse = parse cfg) (m : Method)
    (hvals : ∀ wc items, Values E wc items → ∀ i ∈ items, methodSymbol m ∉ i.content)
    (t : Str) (ht : methodSymbol m ∉ t) (c : Cmd) (hc : parse cfg t = .ok c) :
    ∀ c', Relation.ReflTransGen (Part E) c c' → c'.method ≠ some m := by
  intro c' hr hm
  have h := symbol_env E cfg hE m hvals
  have hmade := h.parse t c (fun x hx e => ht (e ▸ hx)) (by rw [hE]; exact hc)
  exact made_method (made_reach h hmade hr) hm rfl

/-- **C74.**  Without a `~` in the template and in the values of wildcards, nothing is random but what the settings of
the context make random. -/
theorem no_tilde_no_randomness (E : Env W) (cfg : ParserCfg) (hE : E.parse = parse cfg)
    (hvals : ∀ wc items, Values E wc items → ∀ i ∈ items, '~' ∉ i.content)
    (ctx : Ctx) (t : Str) (ht : '~' ∉ t) (hm : ctx.method ≠ .random) (hv : ∀ b ∈ ctx.vars, RandomFree E b.2)
    (hu : ∀ u, E.unknown = some u → RandomFree E u) : NoRandomness E ctx (.inl t) where
  method := hm
  template := by intro c h; cases h
  text := by
    rintro s c ⟨rfl⟩ hc
    exact methods_need_symbols E cfg hE .random hvals _ ht c (hE ▸ hc)
  vars := hv
  unknown := hu

private theorem shelf_values {c : SysCfg R S} {shelf : Str → Except Err (List Item)} {wc : Str} {items : List Item}
    (h : Values (withShelf c shelf) wc items) : shelf wc = .ok items := by
  obtain ⟨w, w', e⟩ := h
  change M.lift (shelf wc) w = _ at e
  cases hs : shelf wc with
  | ok v => rw [hs] at e; cases e; rfl
  | error e' => rw [hs] at e; cases e

/-- **C74.**  From text and files: if neither the template nor any value of a wildcard contains a `~`, then a
combinatorial or cyclical context without variables gives the same prompts, and the same end, in two processes with
the same files and settings, whatever happened in them and whatever the states of their random generators are. -/
theorem no_tilde_no_seed (c : SysCfg R S) (past past' : Sys R S) (ops ops' : List (SysOp R S))
    (hoff : past.mgr.shuffle = false) (hoff' : past'.mgr.shuffle = false) (hq : ∀ op ∈ ops, Quiet op)
    (hq' : ∀ op ∈ ops', Quiet op) :
    let s := runSys c ops { past with mgr := Mgr.clearCache past.mgr }
    let s' := runSys c ops' { past' with mgr := Mgr.clearCache past'.mgr }
    s.mgr.fs = s'.mgr.fs → s.mgr.sort = s'.mgr.sort → s.mgr.dedup = s'.mgr.dedup →
    ∀ shelf, OnShelf c.mgr s.mgr.fs s.mgr.sort s.mgr.dedup shelf →
    (∀ wc items, shelf wc = .ok items → ∀ i ∈ items, '~' ∉ i.content) → c.unknown = none →
    ∀ (t : Str), '~' ∉ t → ∀ (ctx : Ctx), ctx.method ≠ .random → ctx.vars = [] → ∀ (fuel k : Nat),
      (samplePrompts (system c) fuel ctx (.inl t) k s).1 = (samplePrompts (system c) fuel ctx (.inl t) k s').1 := by
  intro s s' h1 h2 h3 shelf hs hvals hun t ht ctx hm hv fuel k
  have a := (files_decide_prompts c past ops hoff hq shelf hs fuel ctx (.inl t) k).1
  have b := (files_decide_prompts c past' ops' hoff' hq' shelf (by
    have := hs; rw [h1, h2, h3] at this; exact this) fuel ctx (.inl t) k).1
  refine a.trans (Eq.trans ?_ b.symm)
  have hfree : NoRandomness (withShelf c shelf) ctx (.inl t) :=
    no_tilde_no_randomness _ c.parser rfl (fun wc items h => hvals wc items (shelf_values h)) ctx t ht hm
      (by rw [hv]; simp) (by intro u hu; change c.unknown = _ at hu; rw [hun] at hu; cases hu)
  refine repeatable _ ctx _ hfree (fun wc w w' => ?_) fuel k s.rand s'.rand
  show SameOutcome _ (M.lift (shelf wc) w) (M.lift (shelf wc) w')
  cases shelf wc with
  | ok v => exact ⟨rfl, trivial⟩
  | error e => exact ⟨rfl, trivial⟩

/-- **C74.**  From text and files: an iterator over such a template is not disturbed by anything else the program
does (compare C73). -/
theorem no_tilde_no_interference (c : ProcCfg R S) (fuel : Nat) (past : Proc R S) (o : CtxObj) (t : Str)
    (u j : Nat) (ops : List ProcOp) (hoff : past.mgr.shuffle = false) (hq : ∀ op ∈ ops, QuietOp op)
    (shelf : Str → Except Err (List Item)) (hs : OnShelf c.mgr past.mgr.fs past.mgr.sort past.mgr.dedup shelf)
    (hvals : ∀ wc items, shelf wc = .ok items → ∀ i ∈ items, '~' ∉ i.content) (hun : o.unknown = none)
    (ht : '~' ∉ t) (hm : o.ctx.method ≠ .random) (hv : o.ctx.vars = [])
    (hk : ∀ op ∈ ops, opens u j op = false ∧ resets op = false)
    (hopen : ∃ g, sampleGen (withShelf ⟨c.mgr, o.parser, c.rng, o.ignoreWs, o.unknown⟩ shelf) o.ctx (.inl t) = .ok g) (r : S) :
    promptsIn (nextAnswers u j
        (trace c fuel (.act u (.iterate j o (.inl t)) :: ops) { past with mgr := Mgr.clearCache past.mgr })) =
      (samplePrompts (withShelf ⟨c.mgr, o.parser, c.rng, o.ignoreWs, o.unknown⟩ shelf) fuel o.ctx (.inl t) (ops.countP (advances u j)) r).1 :=
  iterators_give_their_prompts c fuel past o (.inl t) u j ops hoff hq shelf hs
    (no_tilde_no_randomness _ o.parser rfl (fun wc items h => hvals wc items (shelf_values h)) o.ctx t ht hm
      (by rw [hv]; simp) (by intro u hu; change o.unknown = _ at hu; rw [hun] at hu; cases hu)) hk hopen r

/-! ## Where the values come from -/

/-- Every value on the shelf is a value of one of the manager's collections. -/
theorem shelf_item (cfg : MgrCfg R) (fs : FNode) (sort dedup : Bool) {shelf : Str → Except Err (List Item)}
    (hs : OnShelf cfg fs sort dedup shelf) {wc : Str} {items : List Item} (h : shelf wc = .ok items) {i : Item}
    (hi : i ∈ items) : ∃ q ∈ rootMapColls cfg.lib fs cfg.roots, ∃ vs, Holds fs q.2 vs ∧ i ∈ vs := by
  have hgather : ∀ pat (m : List (Str × RawColl)) vs, Gathers fs pat m vs → i ∈ vs →
      ∃ q ∈ m, ∃ vs, Holds fs q.2 vs ∧ i ∈ vs := by
    intro pat m vs hg
    induction hg with
    | nil => simp
    | skip _ _ ih => intro h; obtain ⟨q, hq, r⟩ := ih h; exact ⟨q, by simp [hq], r⟩
    | take _ h2 _ ih =>
      intro h
      rcases List.mem_append.1 h with h | h
      · exact ⟨_, List.mem_cons_self, _, h2, h⟩
      · obtain ⟨q, hq, r⟩ := ih h; exact ⟨q, by simp [hq], r⟩
  have hmatch : ∀ w vs, Matches cfg fs w vs → i ∈ vs →
      ∃ q ∈ rootMapColls cfg.lib fs cfg.roots, ∃ vs, Holds fs q.2 vs ∧ i ∈ vs := by
    rintro w vs (⟨_, rfl⟩ | ⟨pat, _, hg⟩) h
    · simp at h
    · exact hgather _ _ _ hg h
  by_cases hf : ∃ found, Finds cfg fs wc found
  · obtain ⟨found, hf⟩ := hf
    obtain ⟨out, ho, ha⟩ := (hs wc).1 found hf
    rw [h] at ho
    cases ho
    have hin : i ∈ found := by
      cases hd : dedup with
      | true => exact ((ha.distinct hd).2 i).1 hi
      | false => exact (ha.all hd).mem_iff.1 hi
    rcases hf with ⟨hm, _⟩ | ⟨_, _, hm⟩ <;> exact hmatch _ _ hm hin
  · rw [(hs wc).2 hf] at h
    cases h

/-- What is true of the values of all collections, checked one by one, is true of the values on the shelf. -/
theorem shelf_all (cfg : MgrCfg R) (fs : FNode) (sort dedup : Bool) {shelf : Str → Except Err (List Item)}
    (hs : OnShelf cfg fs sort dedup shelf) (p : Item → Bool)
    (hp : (rootMapColls cfg.lib fs cfg.roots).all (fun q => ((collVal fs q.2).getD []).all p) = true)
    (wc : Str) (items : List Item) (h : shelf wc = .ok items) : ∀ i ∈ items, p i = true := by
  intro i hi
  obtain ⟨q, hq, vs, hv, hiv⟩ := shelf_item cfg fs sort dedup hs h hi
  have := List.all_eq_true.1 hp q hq
  rw [(collVal_holds _ _ _).2 hv] at this
  exact List.all_eq_true.1 this i hiv

/-! ## C75 -/

theorem made_mono {K : Char → Prop} {A B : Method → Prop} (hAB : ∀ m, A m → B m) {c : Cmd} (h : Made K A c) :
    Made K B c := by
  induction h with
  | lit h1 h2 => exact .lit h1 fun x hx => hAB x (h2 x hx)
  | seq _ h2 h3 ih => exact .seq ih h2 fun x hx => hAB x (h3 x hx)
  | variant _ h2 h3 ih => exact .variant ih h2 fun x hx => hAB x (h3 x hx)
  | named h1 _ h3 ih => exact .named h1 ih fun x hx => hAB x (h3 x hx)
  | path _ _ h3 ih1 ih2 => exact .path ih1 ih2 fun x hx => hAB x (h3 x hx)
  | assign _ ih => exact .assign ih
  | access => exact .access
  | accessD _ ih => exact .accessD ih
  | wrap _ _ h3 ih1 ih2 => exact .wrap ih1 ih2 fun x hx => hAB x (h3 x hx)

/-- **C75.**  No character comes from nowhere: let `K` contain the space, the comma (the default separator), the
characters of the wildcard mark, of the template, of all values of wildcards, of the variables of the context and of
the value for unknown variables.  Then every prompt is made of characters in `K`. -/
theorem no_new_characters (E : Env W) (cfg : ParserCfg) (hE : E.parse = parse cfg) (wrap : Str)
    (hwrap : E.toWildcard = toWildcard wrap) (K : Char → Prop) (hsp : K ' ') (hco : K ',') (hK : Over K wrap)
    (hvals : ∀ wc items, Values E wc items → ∀ i ∈ items, Over K i.content)
    (hu : ∀ u, E.unknown = some u → Made K (fun _ => True) u)
    (ctx : Ctx) (hv : ∀ b ∈ ctx.vars, Made K (fun _ => True) b.2) (t : Str) (ht : Over K t)
    (fuel k : Nat) (w : W) : ∀ prompt ∈ (samplePrompts E fuel ctx (.inl t) k w).1, Over K prompt := by
  intro prompt hp
  refine langPrompt_over (A := fun _ => True) ⟨?_, hvals⟩ hsp hu ?_ (sampling_sound E fuel ctx (.inl t) k w prompt hp)
    hv (by rintro s ⟨rfl⟩; exact ht) (by rintro c ⟨⟩)
  · intro s c hs hc
    rw [hE] at hc
    exact made_mono (fun _ _ => trivial) (parse_made hsp hco hs hc)
  · intro p hp
    rw [hwrap]
    unfold toWildcard
    have h1 : ∀ q, Over K q → Over K (if endsWith q wrap then q else q ++ wrap) := by
      intro q hq
      split
      · exact hq
      · exact hq.append hK
    refine h1 _ ?_
    split
    · exact hp
    · exact hK.append hp

/-- **C75.**  The same from text and files, for a context without variables. -/
theorem no_new_characters_from_files (c : SysCfg R S) (past : Sys R S) (ops : List (SysOp R S))
    (hoff : past.mgr.shuffle = false) (hq : ∀ op ∈ ops, Quiet op) :
    let s := runSys c ops { past with mgr := Mgr.clearCache past.mgr }
    ∀ shelf, OnShelf c.mgr s.mgr.fs s.mgr.sort s.mgr.dedup shelf →
    ∀ (t : Str) (ctx : Ctx), ctx.vars = [] → c.unknown = none → ∀ (fuel k : Nat),
      ∀ prompt ∈ (samplePrompts (system c) fuel ctx (.inl t) k s).1, ∀ x ∈ prompt,
        x = ' ' ∨ x = ',' ∨ x ∈ c.mgr.wrap ∨ x ∈ t ∨ ∃ wc items, shelf wc = .ok items ∧ ∃ i ∈ items, x ∈ i.content := by
  intro s shelf hs t ctx hv hun fuel k prompt hp
  rw [(files_decide_prompts c past ops hoff hq shelf hs fuel ctx (.inl t) k).1] at hp
  refine no_new_characters (withShelf c shelf) c.parser rfl c.mgr.wrap rfl (fun x => x = ' ' ∨ x = ',' ∨
    x ∈ c.mgr.wrap ∨ x ∈ t ∨ ∃ wc items, shelf wc = .ok items ∧ ∃ i ∈ items, x ∈ i.content) (.inl rfl)
    (.inr (.inl rfl)) (fun x hx => .inr (.inr (.inl hx))) ?_ ?_ ctx (by rw [hv]; simp) t
    (fun x hx => .inr (.inr (.inr (.inl hx)))) fuel k s.rand prompt hp
  · intro wc items h i hi x hx
    exact .inr (.inr (.inr (.inr ⟨wc, items, shelf_values h, i, hi, hx⟩)))
  · intro u hu
    change c.unknown = _ at hu
    rw [hun] at hu
    cases hu

/-! ## Examples -/

/-- The values of the example's files contain no `~`. -/
theorem sys_no_tilde (shelf : Str → Except Err (List Item)) (h : OnShelf sysCfg.mgr sysFs true true shelf) :
    ∀ wc items, shelf wc = .ok items → ∀ i ∈ items, '~' ∉ i.content := by
  intro wc items hs i hi
  have := shelf_all _ _ _ _ h (fun i => !i.content.contains '~') (by decide +kernel) wc items hs i hi
  simpa using this

/-- So the hypotheses of C73 hold for the iterator of the example there. -/
example (shelf : Str → Except Err (List Item)) (h : OnShelf sysCfg.mgr sysFs true true shelf) :
    NoRandomness (withShelf (procCfg.sys (generatorObj .comb sysCfg.parser false)) shelf)
      (generatorObj .comb sysCfg.parser false).ctx (.inl c!"{a|__b__}!") :=
  no_tilde_no_randomness _ sysCfg.parser rfl (fun wc items hv => sys_no_tilde shelf h wc items (shelf_values hv)) _ _
    (by decide) (by simp [generatorObj, generatorCtx]) (by simp [generatorObj, generatorCtx]) (by intro u hu; cases hu)

/-- With another symbol the template is random. -/
example : ∃ c, parse sysCfg.parser c!"{~a|b}!" = .ok c ∧ ¬ RandomFree (withShelf sysCfg fun _ => .ok []) c := by
  refine ⟨.seq [Demo.oneOf [c!"a", c!"b"] (some .random), .lit c!"!" none] [] none, by decide +kernel, fun h => ?_⟩
  exact h (Demo.oneOf [c!"a", c!"b"] (some .random)) (.single (.token (by simp))) rfl

/-- The prompts of the example are made of its characters. -/
example : (samplePrompts (system sysCfg) 40 (Demo.ctx .comb) (.inl c!"{2$$a|__b__}!") 3
    (runSys sysCfg sysOps ⟨newMgr sysFs 0, 0⟩)).1 = [c!"a,red!", c!"a,dark blue!", c!"a,dark green!"] := by decide +kernel

end Verif.Props
