import Verif.Proofs.Choose
/-!
Soundness of the engine with respect to the language of a template: an invariant on generator
states (`GOk`) that every `next` preserves.
-/

namespace Verif
open Spec
variable {W : Type}

/-- Texts of a combination in the cyclical sampler: one text each, cut off before a dry option. -/
inductive ATexts : List ((Str → Prop) × Prop) → List Str → Prop
  | nil : ATexts [] []
  | cons {P D L v vs} : P v → ATexts L vs → ATexts ((P, D) :: L) (v :: vs)
  | dry {P D L} : D → ATexts ((P, D) :: L) []

/-- A list of predicates satisfied position by position. -/
inductive All2 : List (Str → Prop) → List Str → Prop
  | nil : All2 [] []
  | cons {Q Qs v vs} : Q v → All2 Qs vs → All2 (Q :: Qs) (v :: vs)

/-- The command asks for a non-finite method itself. -/
def Cmd.ownNonfinite (c : Cmd) : Prop := c.method = some .random ∨ c.method = some .cyc

mutual
/-- `GOk g P D D'`: every text of `g` satisfies `P`; `g` can stop only if `D`, and after its first
text only if `D'`. -/
inductive GOk (E : Env W) : Gen → (Str → Prop) → Prop → Prop → Prop
  | done {P D D'} : D → GOk E .done P D D'
  | start {ctx c P D D'} : (∀ s, Lang E ctx.vars c s → P s) → (ctx.method = .comb → D ∧ D') →
      (ctx.method ≠ .comb → Dry E ctx.vars c → D) → GOk E (.start ctx c) P D D'
  | rep {s P D D'} : P s → GOk E (.rep s) P D D'
  | seqNF {sep gens P D D' Qs} : GOkL E gens Qs → (∀ vs, All2 Qs vs → P (joined sep vs)) →
      GOk E (.seqNF sep gens) P D D'
  | randVar {ctx opts lo hi sep P D D'} : ctx.method ≠ .comb → opts.length ≠ 1 →
      (∀ cs strs, cs.Subperm (opts.map (·.1)) → InBounds opts.length lo hi cs.length →
        LangAll E ctx.vars cs strs → P (joined sep strs)) →
      GOk E (.randVar ctx opts lo hi sep) P D D'
  | randWild {ctx items buf P D D'} : ctx.method ≠ .comb →
      (∀ v ∈ items.map Item.content, ∀ s, LangPrompt E ctx.vars (.inl v) s → P s) →
      (∀ v ∈ buf, v ∈ items.map Item.content) → GOk E (.randWild ctx items buf) P D D'
  | zipWrap {wg ig P D D' Q R D1 D2} : GOk E wg Q D1 False → GOk E ig R D2 False →
      (∀ w i, Q w → R i → P (wrapWith w i)) → (D1 → D) → (D2 → D) → GOk E (.zipWrap wg ig) P D D'
  | cycVar {sep q P D D' Q} : AOkL E q Q → (∀ vs, Q vs → P (joined sep vs)) →
      GOk E (.cycVar sep q) P D D'
  | cycWild {q P D D' Q} : GOkA E q Q → (∀ s, Q s → P s) → (q = [] → D) → GOk E (.cycWild q) P D D'
  | combSeq {sep coll fr P D D' vars Qs} : CollOk E vars coll → SOk E vars fr Qs →
      (∀ vs, All2 Qs vs → P (joined sep vs)) → D → D' → GOk E (.combSeq sep coll fr) P D D'
  | combVar {ctx sep seen pend P D D'} : ctx.method = .comb →
      (∀ b combo, (b, combo) ∈ pend → combo.length = b ∧ ∀ strs, LangAll E ctx.vars combo strs →
        P (joined sep strs)) → D → D' → GOk E (.combVar ctx sep seen pend) P D D'
  | combVarIn {ctx sep seen pend b fr P D D' Qs} : ctx.method = .comb →
      (∀ b combo, (b, combo) ∈ pend → combo.length = b ∧ ∀ strs, LangAll E ctx.vars combo strs →
        P (joined sep strs)) → POk E fr Qs → Qs.length = b →
      (∀ strs, All2 Qs strs → P (joined sep strs)) →
      D → D' → GOk E (.combVarIn ctx sep seen pend b fr) P D D'
  | combWild {ctx vals cur P D D' Q} : GOk E cur Q True True → (∀ s, Q s → P s) →
      (∀ v ∈ vals, ∀ s, LangPrompt E ctx.vars (.inl v) s → P s) → D → D' →
      GOk E (.combWild ctx vals cur) P D D'
  | combWrap {ctx inner wg P D D' Q} : GOk E wg Q True True →
      (∀ w i, Q w → LangPrompt E ctx.vars (.inr inner) i → P (wrapWith w i)) → D → D' →
      GOk E (.combWrap ctx inner wg) P D D'
  | combWrapIn {ctx inner wg w ig P D D' Q R} : GOk E wg Q True True → GOk E ig R True True →
      (∀ w i, Q w → LangPrompt E ctx.vars (.inr inner) i → P (wrapWith w i)) →
      (∀ i, R i → P (wrapWith w i)) → D → D' → GOk E (.combWrapIn ctx inner wg w ig) P D D'
  | squash {g P D D' Q D1 D1'} : GOk E g Q D1 D1' → (∀ s, Q s → P (squashWhitespace s)) →
      (D1 → D) → (D1' → D') →
      GOk E (.squash g) P D D'
/-- Lists of generators, one predicate each. -/
inductive GOkL (E : Env W) : List Gen → List (Str → Prop) → Prop
  | nil : GOkL E [] []
  | cons {g gs Q Qs} : GOk E g Q True True → GOkL E gs Qs → GOkL E (g :: gs) (Q :: Qs)
/-- Lists of generators, one predicate for all. -/
inductive GOkA (E : Env W) : List Gen → (Str → Prop) → Prop
  | nil {P} : GOkA E [] P
  | cons {g gs P} : GOk E g P True True → GOkA E gs P → GOkA E (g :: gs) P
/-- States of `_get_combination_samples`. -/
inductive AOk (E : Env W) : Arr → List ((Str → Prop) × Prop) → Prop
  | done {L} : AOk E .done L
  | nil : AOk E .nil []
  | start {ctx combo} : ctx.method ≠ .comb →
      AOk E (.start ctx combo) (combo.map fun c => (Lang E ctx.vars c, Dry E ctx.vars c))
  | node {g rest P D D0 L} : GOk E g P D0 False → (D0 → D) → AOk E rest L →
      AOk E (.node g rest) ((P, D) :: L)
/-- Queues of combination samplers. -/
inductive AOkL (E : Env W) : List Arr → (List Str → Prop) → Prop
  | nil {P} : AOkL E [] P
  | cons {a q P L} : AOk E a L → (∀ vs, ATexts L vs → P vs) → AOkL E q P → AOkL E (a :: q) P
/-- Command collections: entries of non-finite commands have a value and never run dry. -/
inductive CollOk (E : Env W) : List (Str × Cmd) → Coll → Prop
  | nil {vars} : CollOk E vars []
  | cons {vars c g v coll} : (c.ownNonfinite → GOk E g (Lang E vars c) False False) →
      (c.ownNonfinite → ∃ s, v = some s ∧ Lang E vars c s) → CollOk E vars coll →
      CollOk E vars ((c, g, v) :: coll)
/-- States of `get_sequence`. -/
inductive SOk (E : Env W) : List (Str × Cmd) → SFrame → List (Str → Prop) → Prop
  | done {vars Qs} : SOk E vars .done Qs
  | start {vars ctx cmds} : ctx.method = .comb → ctx.vars = vars →
      SOk E vars (.start ctx cmds) (cmds.map (Lang E vars))
  | nf {vars c rest Qs} : c.ownNonfinite → SOk E vars rest Qs →
      SOk E vars (.nf c rest) (Lang E vars c :: Qs)
  | fin {vars ctx cs g Q} : ctx.method = .comb → ctx.vars = vars → GOk E g Q True True →
      SOk E vars (.fin ctx cs g) (Q :: cs.map (Lang E vars))
  | finIn {vars ctx cs g v cur Q} : ctx.method = .comb → ctx.vars = vars → GOk E g Q True True →
      Q v → SOk E vars cur (cs.map (Lang E vars)) →
      SOk E vars (.finIn ctx cs g v cur) (Q :: cs.map (Lang E vars))
/-- States of `_combo_to_prompt`. -/
inductive POk (E : Env W) : PFrame → List (Str → Prop) → Prop
  | done {Qs} : POk E .done Qs
  | start {ctx cmds} : POk E (.start ctx cmds) (cmds.map (Lang E ctx.vars))
  | nf {g rest Q Qs} : GOk E g Q True True → POk E rest Qs → POk E (.nf g rest) (Q :: Qs)
  | fin {ctx cs g Q} : GOk E g Q True True → POk E (.fin ctx cs g) (Q :: cs.map (Lang E ctx.vars))
  | finIn {ctx cs g v cur Q} : GOk E g Q True True → Q v → POk E cur (cs.map (Lang E ctx.vars)) →
      POk E (.finIn ctx cs g v cur) (Q :: cs.map (Lang E ctx.vars))
end

/-- What `next` guarantees for a text generator. -/
def PostG (E : Env W) (P : Str → Prop) (D D' : Prop) : Option (Str × Gen) → Prop
  | none => D
  | some (v, g') => P v ∧ GOk E g' P D' D'

/-- What `next` guarantees for a combination sampler. -/
def PostA (E : Env W) (L : List ((Str → Prop) × Prop)) : Option (List Str × Arr) → Prop
  | none => True
  | some (vs, a') => ATexts L vs ∧ AOk E a' L

/-- What `next` guarantees for `get_sequence`. -/
def PostS (E : Env W) (vars : List (Str × Cmd)) (Qs : List (Str → Prop)) :
    Option (List Str × SFrame) → Prop
  | none => True
  | some (vs, fr') => All2 Qs vs ∧ SOk E vars fr' Qs

/-- What `next` guarantees for `_combo_to_prompt`. -/
def PostP (E : Env W) (Qs : List (Str → Prop)) : Option (List Str × PFrame) → Prop
  | none => True
  | some (vs, fr') => All2 Qs vs ∧ POk E fr' Qs

/-- What `next` must guarantee. -/
structure Good (E : Env W) (r : Recs W) : Prop where
  G : ∀ {g P D D'}, GOk E g P D D' → ∀ {w o w'}, r.G g w = .ok o w' → PostG E P D D' o
  A : ∀ {a L}, AOk E a L → ∀ {w o w'}, r.A a w = .ok o w' → PostA E L o
  S : ∀ {vars coll fr Qs}, CollOk E vars coll → SOk E vars fr Qs → ∀ {w o w'},
    r.S coll fr w = .ok o w' → CollOk E vars o.1 ∧ PostS E vars Qs o.2
  P : ∀ {fr Qs}, POk E fr Qs → ∀ {w o w'}, r.P fr w = .ok o w' → PostP E Qs o

/-! ### Creating generators -/

theorem resolveVar_ok {u : Option Cmd} {vars : List (Str × Cmd)} {name : Str} {d : Option Cmd}
    {c : Cmd} (h : resolveVar u vars name d = .ok c) : Resolves u vars name d c := by
  unfold resolveVar at h
  cases hl : vars.lookup name with
  | some c' =>
    rw [hl] at h
    dsimp only at h
    by_cases ht : c'.truthy = true
    · rw [if_pos ht] at h; cases h; exact .var hl ht
    · rw [if_neg ht] at h
      cases u with
      | none => simp at h
      | some u => simp at h; subst h; exact .unknownEmpty hl (by simpa using ht) rfl
  | none =>
    rw [hl] at h
    dsimp only at h
    cases d with
    | none =>
      cases u with
      | none => simp at h
      | some u => simp at h; subst h; exact .unknown hl rfl
    | some d =>
      dsimp only at h
      by_cases ht : d.truthy = true
      · rw [if_pos ht] at h; cases h; exact .default hl ht
      · rw [if_neg ht] at h
        cases u with
        | none => simp at h
        | some u => simp at h; subst h; exact .unknownEmptyDefault hl (by simpa using ht) rfl

theorem effMethod_nonfinite {m : Method} (o : Option Method) (h : m ≠ .comb) :
    effMethod m o ≠ .comb := by
  cases m <;> cases o with
  | none => simp_all [effMethod]
  | some o => cases o <;> simp_all [effMethod, Method.nonfinite]

theorem effMethod_own {o : Method} (h : o ≠ .comb) (m : Method) : effMethod m (some o) ≠ .comb := by
  cases m <;> cases o <;> simp_all [effMethod, Method.nonfinite]

/-- A created generator starts the command or what it stands for, with the same variables. -/
theorem mkGenF_ok {E : Env W} {n : Nat} {ctx : Ctx} {c : Cmd} {g : Gen}
    (h : mkGenF E.unknown n ctx c = some (.ok g)) :
    ∃ ctx' c', g = .start ctx' c' ∧ ctx'.vars = ctx.vars ∧
      (∀ s, Lang E ctx.vars c' s → Lang E ctx.vars c s) ∧
      (Dry E ctx.vars c' → Dry E ctx.vars c) ∧
      (ctx.method ≠ .comb ∨ c.ownNonfinite → ctx'.method ≠ .comb) := by
  induction n generalizing ctx c with
  | zero =>
    have key : g = .start (ctx.withMethod (effMethod ctx.method c.method)) c →
        ∃ ctx' c', g = .start ctx' c' ∧ ctx'.vars = ctx.vars ∧
        (∀ s, Lang E ctx.vars c' s → Lang E ctx.vars c s) ∧
        (Dry E ctx.vars c' → Dry E ctx.vars c) ∧
        (ctx.method ≠ .comb ∨ c.ownNonfinite → ctx'.method ≠ .comb) := by
      intro hg
      refine ⟨_, c, hg, rfl, fun _ h => h, fun h => h, ?_⟩
      rintro (h | h | h)
      · exact effMethod_nonfinite _ h
      · simp only [Ctx.withMethod, h]; exact effMethod_own (by simp) _
      · simp only [Ctx.withMethod, h]; exact effMethod_own (by simp) _
    unfold mkGenF at h
    cases c with
    | assign => simp at h
    | wrap wr i m =>
      dsimp only at h
      split at h
      · simp at h
      · simp only [Option.some.injEq, Except.ok.injEq] at h; exact key h.symm
    | access name d =>
      dsimp only at h
      split at h
      · simp at h
      · split at h
        · simp at h
        · simp at h
    | _ => simp only [Option.some.injEq, Except.ok.injEq] at h; exact key h.symm
  | succ n ih =>
    have key : g = .start (ctx.withMethod (effMethod ctx.method c.method)) c →
        ∃ ctx' c', g = .start ctx' c' ∧ ctx'.vars = ctx.vars ∧
        (∀ s, Lang E ctx.vars c' s → Lang E ctx.vars c s) ∧
        (Dry E ctx.vars c' → Dry E ctx.vars c) ∧
        (ctx.method ≠ .comb ∨ c.ownNonfinite → ctx'.method ≠ .comb) := by
      intro hg
      refine ⟨_, c, hg, rfl, fun _ h => h, fun h => h, ?_⟩
      rintro (h | h | h)
      · exact effMethod_nonfinite _ h
      · simp only [Ctx.withMethod, h]; exact effMethod_own (by simp) _
      · simp only [Ctx.withMethod, h]; exact effMethod_own (by simp) _
    unfold mkGenF at h
    cases c with
    | assign => simp at h
    | wrap wr i m =>
      dsimp only at h
      split at h
      · simp at h
      · simp only [Option.some.injEq, Except.ok.injEq] at h; exact key h.symm
    | access name d =>
      dsimp only at h
      split at h
      · simp at h
      · rename_i c1 hr
        split at h
        · simp at h
        · obtain ⟨ctx', c', h1, h2, h3, h4, h5⟩ := ih h
          refine ⟨ctx', c', h1, h2, ?_, ?_, ?_⟩
          · intro s hs; exact .access (resolveVar_ok hr) (h3 s hs)
          · intro hd; exact .access (resolveVar_ok hr) (h4 hd)
          · rintro (hm | hm | hm)
            · refine h5 (Or.inl ?_)
              show effMethod ctx.method (Cmd.access name d).method ≠ .comb
              exact effMethod_nonfinite _ hm
            · simp [Cmd.method] at hm
            · simp [Cmd.method] at hm
    | _ => simp only [Option.some.injEq, Except.ok.injEq] at h; exact key h.symm

theorem mkGen_ok' {E : Env W} {ctx : Ctx} {c : Cmd} {g : Gen} (h : mkGen E.unknown ctx c = .ok g) :
    ∃ ctx' c', g = .start ctx' c' ∧ ctx'.vars = ctx.vars ∧
      (∀ s, Lang E ctx.vars c' s → Lang E ctx.vars c s) ∧
      (Dry E ctx.vars c' → Dry E ctx.vars c) ∧
      (ctx.method ≠ .comb ∨ c.ownNonfinite → ctx'.method ≠ .comb) := by
  unfold mkGen at h
  split at h
  · rename_i r hr
    subst h
    exact mkGenF_ok hr
  · simp at h

theorem mkGen_GOk {E : Env W} {ctx : Ctx} {c : Cmd} {g : Gen} (h : mkGen E.unknown ctx c = .ok g) :
    GOk E g (Lang E ctx.vars c) True True := by
  obtain ⟨ctx', c', rfl, hv, hl, -, -⟩ := mkGen_ok' h
  exact .start (fun s hs => hl s (hv ▸ hs)) (fun _ => ⟨trivial, trivial⟩) (fun _ _ => trivial)

/-- Below a non-finite context a created generator can only stop at once, and only if it is dry. -/
theorem mkGen_GOk_nf {E : Env W} {ctx : Ctx} {c : Cmd} {g : Gen} (h : mkGen E.unknown ctx c = .ok g)
    (hm : ctx.method ≠ .comb ∨ c.ownNonfinite) :
    GOk E g (Lang E ctx.vars c) (Dry E ctx.vars c) False := by
  obtain ⟨ctx', c', rfl, hv, hl, hd, hm'⟩ := mkGen_ok' h
  refine .start (fun s hs => hl s (hv ▸ hs)) (fun h0 => absurd h0 (hm' hm)) (fun _ h0 => hd (hv ▸ h0))

theorem mkGens_GOkL {E : Env W} {ctx : Ctx} {cs : List Cmd} {gs : List Gen}
    (h : mkGens E.unknown ctx cs = .ok gs) : GOkL E gs (cs.map (Lang E ctx.vars)) := by
  induction cs generalizing gs with
  | nil => simp [mkGens] at h; subst h; exact .nil
  | cons c cs ih =>
    unfold mkGens at h
    split at h
    · simp at h
    · rename_i g hg
      split at h
      · simp at h
      · rename_i gs' hgs
        simp at h; subst h
        exact .cons (mkGen_GOk hg) (ih hgs)

theorem sampleGen_GOk {E : Env W} {ctx : Ctx} {p : Prompt} {g : Gen} (h : sampleGen E ctx p = .ok g) :
    GOk E g (LangPrompt E ctx.vars p) True True := by
  have key : ∀ c g', mkGen E.unknown ctx c = .ok g' →
      (∀ s, Lang E ctx.vars c s → LangPrompt E ctx.vars p (if E.ignoreWs then squashWhitespace s else s)) →
      GOk E (if E.ignoreWs then .squash g' else g') (LangPrompt E ctx.vars p) True True := by
    intro c g' hg hs
    cases hi : E.ignoreWs with
    | true =>
      simp only [if_true]
      refine .squash (mkGen_GOk hg) (fun s h0 => ?_) id id
      have := hs s h0; rwa [hi] at this
    | false =>
      obtain ⟨ctx', c', rfl, hv, hl, -, -⟩ := mkGen_ok' hg
      refine .start (fun s h0 => ?_) (fun _ => ⟨trivial, trivial⟩) (fun _ _ => trivial)
      have := hs s (hl s (hv ▸ h0))
      simp only [hi] at this; exact this
  cases p with
  | inl s =>
    simp only [sampleGen] at h
    split at h
    · simp at h; subst h; exact .done trivial
    · rename_i hne
      split at h
      · simp at h
      · rename_i c hc
        split at h
        · simp at h
        · rename_i g' hg
          simp at h; subst h
          exact key c g' hg (fun s' hs' => .text (by simpa using hne) hc hs')
  | inr c =>
    simp only [sampleGen] at h
    split at h
    · simp at h; subst h; exact .done trivial
    · rename_i hne
      split at h
      · simp at h
      · rename_i g' hg
        simp at h; subst h
        exact key c g' hg (fun s' hs' => .cmd (by simpa using hne) hs')

theorem GOk.weaken {E : Env W} {g : Gen} {P P1 : Str → Prop} {D D' D1 D1' : Prop}
    (h : GOk E g P D D') (hP : ∀ s, P s → P1 s) (hD : D → D1) (hD' : D' → D1') : GOk E g P1 D1 D1' := by
  cases h with
  | done h => exact .done (hD h)
  | start h1 h2 h3 =>
    exact .start (fun s hs => hP s (h1 s hs)) (fun h => ⟨hD (h2 h).1, hD' (h2 h).2⟩)
      (fun h h' => hD (h3 h h'))
  | rep h => exact .rep (hP _ h)
  | seqNF h1 h2 => exact .seqNF h1 (fun vs h => hP _ (h2 vs h))
  | randVar h0 h1 h2 => exact .randVar h0 h1 (fun cs strs a b c => hP _ (h2 cs strs a b c))
  | randWild h0 h1 h2 => exact .randWild h0 (fun v hv s hs => hP _ (h1 v hv s hs)) h2
  | zipWrap h1 h2 h3 h4 h5 =>
    exact .zipWrap h1 h2 (fun w i a b => hP _ (h3 w i a b)) (fun h => hD (h4 h)) (fun h => hD (h5 h))
  | cycVar h1 h2 => exact .cycVar h1 (fun vs h => hP _ (h2 vs h))
  | cycWild h1 h2 h3 => exact .cycWild h1 (fun s h => hP _ (h2 s h)) (fun h => hD (h3 h))
  | combSeq h1 h2 h3 h4 h5 => exact .combSeq h1 h2 (fun vs h => hP _ (h3 vs h)) (hD h4) (hD' h5)
  | combVar h0 h1 h2 h3 =>
    exact .combVar h0 (fun b c hc => ⟨(h1 b c hc).1, fun s hs => hP _ ((h1 b c hc).2 s hs)⟩) (hD h2) (hD' h3)
  | combVarIn h0 h1 h2 h3 h4 h5 h6 =>
    exact .combVarIn h0 (fun b c hc => ⟨(h1 b c hc).1, fun s hs => hP _ ((h1 b c hc).2 s hs)⟩) h2 h3
      (fun s hs => hP _ (h4 s hs)) (hD h5) (hD' h6)
  | combWild h1 h0 h2 h3 h4 =>
    exact .combWild h1 (fun s h => hP _ (h0 s h)) (fun v hv s hs => hP _ (h2 v hv s hs))
      (hD h3) (hD' h4)
  | combWrap h1 h2 h3 h4 => exact .combWrap h1 (fun w i a b => hP _ (h2 w i a b)) (hD h3) (hD' h4)
  | combWrapIn h1 h2 h3 h4 h5 h6 =>
    exact .combWrapIn h1 h2 (fun w i a b => hP _ (h3 w i a b)) (fun i a => hP _ (h4 i a)) (hD h5) (hD' h6)
  | squash h1 h2 h3 h4 =>
    exact .squash h1 (fun s hs => hP _ (h2 s hs)) (fun h => hD (h3 h)) (fun h => hD' (h4 h))


/-! ### Small facts -/

theorem all2_LangAll {E : Env W} {vars : List (Str × Cmd)} {cs : List Cmd} {vs : List Str}
    (h : All2 (cs.map (Lang E vars)) vs) : LangAll E vars cs vs := by
  induction cs generalizing vs with
  | nil => cases h; exact .nil
  | cons c cs ih =>
    cases h with
    | cons h1 h2 => exact .cons h1 (ih h2)

theorem All2.length {Qs : List (Str → Prop)} {vs : List Str} (h : All2 Qs vs) :
    vs.length = Qs.length := by
  induction h with
  | nil => rfl
  | cons _ _ ih => simp [ih]

theorem langAll_append {E : Env W} {vars : List (Str × Cmd)} {cs ds : List Cmd} {vs : List Str}
    (h : LangAll E vars (cs ++ ds) vs) :
    ∃ v1 v2, vs = v1 ++ v2 ∧ LangAll E vars cs v1 ∧ LangAll E vars ds v2 := by
  induction cs generalizing vs with
  | nil => exact ⟨[], vs, rfl, .nil, h⟩
  | cons c cs ih =>
    cases h with
    | cons h1 h2 =>
      obtain ⟨v1, v2, rfl, h3, h4⟩ := ih h2
      exact ⟨_ :: v1, v2, rfl, .cons h1 h3, h4⟩

theorem langAll_length {E : Env W} {vars : List (Str × Cmd)} {cs : List Cmd} {vs : List Str}
    (h : LangAll E vars cs vs) : vs.length = cs.length := by
  induction cs generalizing vs with
  | nil => cases h; rfl
  | cons c cs ih => cases h with | cons h1 h2 => simp [ih h2]

theorem atexts_split {E : Env W} {vars : List (Str × Cmd)} {cs : List Cmd} {vs : List Str}
    (h : ATexts (cs.map fun c => (Lang E vars c, Dry E vars c)) vs) :
    LangAll E vars cs vs ∨ ∃ pre d post, cs = pre ++ d :: post ∧ LangAll E vars pre vs ∧ Dry E vars d := by
  induction cs generalizing vs with
  | nil => cases h; exact Or.inl .nil
  | cons c cs ih =>
    cases h with
    | cons h1 h2 =>
      rcases ih h2 with h3 | ⟨pre, d, post, rfl, h4, h5⟩
      · exact Or.inl (.cons h1 h3)
      · exact Or.inr ⟨c :: pre, d, post, rfl, .cons h1 h4, h5⟩
    | dry h1 => exact Or.inr ⟨[], c, cs, rfl, .nil, h1⟩

theorem dedupeAux_strSub (l : List Str) (seen : List Str) :
    (dedupeAux (fun s : Str => s) seen l).Sublist l := by
  induction l generalizing seen with
  | nil => exact List.Sublist.refl _
  | cons a l ih =>
    unfold dedupeAux
    split
    · exact (ih _).cons _
    · exact (ih _).cons_cons _

theorem dedupe_eq_of_length {l : List Str} (h : (dedupe (fun s : Str => s) l).length = l.length) :
    dedupe (fun s : Str => s) l = l :=
  (dedupeAux_strSub l []).eq_of_length h

theorem mapM_parses {E : Env W} {vs : List Str} {opts : List (Cmd × Rat)}
    (h : vs.mapM (fun v => (E.parse v).map (fun c => (c, (1 : Rat)))) = .ok opts) :
    ∃ cs, ParsesAll E vs cs ∧ opts = cs.map (fun c => (c, 1)) := by
  induction vs generalizing opts with
  | nil =>
    simp only [List.mapM_nil] at h
    cases h
    exact ⟨[], .nil, rfl⟩
  | cons v vs ih =>
    simp only [List.mapM_cons] at h
    cases hp : E.parse v with
    | error e => rw [hp] at h; simp [Except.map, bind, Except.bind] at h
    | ok c =>
      rw [hp] at h
      simp only [Except.map, bind, Except.bind] at h
      split at h
      · simp at h
      · rename_i rest hr
        simp only [pure, Except.pure, Except.ok.injEq] at h
        subst h
        obtain ⟨cs, h1, rfl⟩ := ih hr
        exact ⟨c :: cs, .cons hp h1, rfl⟩

/-! ### Helpers of the samplers -/

section
variable {E : Env W} {r : Recs W}

theorem next!_good (hr : Good E r) {g : Gen} {P : Str → Prop} {D D' : Prop} (hg : GOk E g P D D')
    {w w' : W} {x : Str × Gen} (h : r.next! g w = .ok x w') : P x.1 ∧ GOk E x.2 P D' D' := by
  obtain ⟨o, w1, h1, h2⟩ := M.bind_ok.1 h
  have := hr.G hg h1
  cases o with
  | none => simp at h2
  | some y =>
    simp only [M.pure_eq, Res.ok.injEq] at h2
    obtain ⟨v, g'⟩ := y
    rw [← h2.1]; exact this

theorem rotate_good (hr : Good E r) {gs : List Gen} {Qs : List (Str → Prop)} (hg : GOkL E gs Qs)
    {w w' : W} {x : List Str × List Gen} (h : r.rotate gs w = .ok x w') :
    All2 Qs x.1 ∧ GOkL E x.2 Qs := by
  induction gs generalizing Qs w w' x with
  | nil =>
    cases hg
    simp only [Recs.rotate, M.pure_eq, Res.ok.injEq] at h
    rw [← h.1]; exact ⟨.nil, .nil⟩
  | cons g gs ih =>
    cases hg with
    | cons h1 h2 =>
      obtain ⟨⟨v, g'⟩, w1, h3, h4⟩ := M.bind_ok.1 h
      obtain ⟨⟨vs, gs'⟩, w2, h5, h6⟩ := M.bind_ok.1 h4
      simp only [M.pure_eq, Res.ok.injEq] at h6
      have a := next!_good hr h1 h3
      have b := ih h2 h5
      rw [← h6.1]
      exact ⟨.cons a.1 b.1, .cons a.2 b.2⟩

theorem sampleFirst_good (hr : Good E r) {ctx : Ctx} {p : Prompt} {w w' : W} {s : Str}
    (h : r.sampleFirst E ctx p w = .ok s w') : LangPrompt E ctx.vars p s := by
  obtain ⟨g, w1, h1, h2⟩ := M.bind_ok.1 h
  replace h1 := M.lift_ok_iff.1 h1
  obtain ⟨h1, rfl⟩ := h1
  obtain ⟨⟨v, g'⟩, w2, h3, h4⟩ := M.bind_ok.1 h2
  simp only [M.pure_eq, Res.ok.injEq] at h4
  rw [← h4.1]
  exact (next!_good hr (sampleGen_GOk h1) h3).1

theorem assign_good (hr : Good E r) {ctx : Ctx} {n : Str} {v c : Cmd} {i o : Bool} {w w' : W}
    (h : r.assign E ctx n v i o w = .ok c w') : AssignedValue E ctx.vars n v i o c := by
  unfold Recs.assign at h
  cases hv : (if o = true then none else ctx.vars.lookup n) with
  | some v' =>
    rw [hv] at h
    simp only [M.pure_eq, Res.ok.injEq] at h
    cases o with
    | true => simp at hv
    | false => rw [← h.1]; exact .keep (by simpa using hv)
  | none =>
    rw [hv] at h
    have ho : o = true ∨ ctx.vars.lookup n = none := by
      cases o with
      | true => exact Or.inl rfl
      | false => exact Or.inr (by simpa using hv)
    cases i with
    | false =>
      simp only [Bool.false_eq_true, if_false, M.pure_eq, Res.ok.injEq] at h
      rw [← h.1]; exact .plain ho
    | true =>
      simp only [if_true] at h
      have key : (do
          let g ← M.lift (mkGen E.unknown ctx v)
          let (v, _) ← r.next! g
          return Cmd.lit v none : M W Cmd) w = .ok c w' → AssignedValue E ctx.vars n v true o c := by
        intro h
        obtain ⟨g, w1, h1, h2⟩ := M.bind_ok.1 h
        replace h1 := M.lift_ok_iff.1 h1
        obtain ⟨h1, rfl⟩ := h1
        obtain ⟨⟨v, g'⟩, w2, h3, h4⟩ := M.bind_ok.1 h2
        simp only [M.pure_eq, Res.ok.injEq] at h4
        rw [← h4.1]
        exact .immediate ho (next!_good hr (mkGen_GOk h1) h3).1
      cases v with
      | lit s m =>
        simp only [M.pure_eq, Res.ok.injEq] at h
        rw [← h.1]; exact .literal ho
      | _ => exact key h

theorem assigns_good (hr : Good E r) {ctx : Ctx} {cs : List Cmd} {x : List Cmd × List (Str × Cmd)}
    {w w' : W} (h : r.assigns E ctx cs w = .ok x w') : Assigned E ctx.vars cs x.1 x.2 := by
  induction cs generalizing x w w' with
  | nil =>
    simp only [Recs.assigns, M.pure_eq, Res.ok.injEq] at h
    rw [← h.1]; exact .nil
  | cons c cs ih =>
    have key : (∀ n v i o, c ≠ .assign n v i o) → (do
        let (toks, new) ← r.assigns E ctx cs
        return (c :: toks, new) : M W _) w = .ok x w' → Assigned E ctx.vars (c :: cs) x.1 x.2 := by
      intro hne h
      obtain ⟨⟨toks, new⟩, w2, h3, h4⟩ := M.bind_ok.1 h
      simp only [M.pure_eq, Res.ok.injEq] at h4
      rw [← h4.1]
      exact .tok hne (ih h3)
    cases c with
    | assign n v i o =>
      obtain ⟨c, w1, h1, h2⟩ := M.bind_ok.1 h
      obtain ⟨⟨toks, new⟩, w2, h3, h4⟩ := M.bind_ok.1 h2
      simp only [M.pure_eq, Res.ok.injEq] at h4
      rw [← h4.1]
      exact .set (assign_good hr h1) (ih h3)
    | _ => exact key (by simp) h

theorem firstValues_good (hr : Good E r) {ctx : Ctx} {cs : List Cmd} {gs : List Gen}
    (hg : mkGens E.unknown ctx cs = .ok gs) {coll : Coll} {w w' : W}
    (h : r.firstValues (cs.zip gs) w = .ok coll w') : CollOk E ctx.vars coll := by
  induction cs generalizing gs coll w w' with
  | nil =>
    simp only [List.zip_nil_left, Recs.firstValues, M.pure_eq, Res.ok.injEq] at h
    rw [← h.1]; exact .nil
  | cons c cs ih =>
    unfold mkGens at hg
    split at hg
    · simp at hg
    · rename_i g hg0
      split at hg
      · simp at hg
      · rename_i gs' hgs
        simp only [Except.ok.injEq] at hg
        subst hg
        simp only [List.zip_cons_cons, Recs.firstValues] at h
        obtain ⟨⟨v, g'⟩, w1, h3, h4⟩ := M.bind_ok.1 h
        obtain ⟨rest, w2, h5, h6⟩ := M.bind_ok.1 h4
        simp only [M.pure_eq, Res.ok.injEq] at h6
        rw [← h6.1]
        refine .cons (fun hn => ?_) (fun hn => ?_) (ih hgs h5)
        · exact (next!_good hr (mkGen_GOk_nf hg0 (Or.inr hn)) h3).2
        · exact ⟨v, rfl, (next!_good hr (mkGen_GOk_nf hg0 (Or.inr hn)) h3).1⟩

theorem mkColl_good (hr : Good E r) {ctx : Ctx} {cs : List Cmd} {coll : Coll} {w w' : W}
    (h : r.mkColl E ctx cs w = .ok coll w') : CollOk E ctx.vars coll := by
  obtain ⟨g, w1, h1, h2⟩ := M.bind_ok.1 h
  replace h1 := M.lift_ok_iff.1 h1
  obtain ⟨h1, rfl⟩ := h1
  exact firstValues_good hr h1 h2

theorem getValue_good (hr : Good E r) {vars : List (Str × Cmd)} {c : Cmd} {coll : Coll}
    (hn : c.ownNonfinite) (hc : CollOk E vars coll) {x : Option Str × Coll} {w w' : W}
    (h : r.getValue c coll w = .ok x w') : (∃ s, x.1 = some s ∧ Lang E vars c s) ∧ CollOk E vars x.2 := by
  induction coll generalizing x w w' with
  | nil => simp [Recs.getValue] at h
  | cons e coll ih =>
    obtain ⟨c', g, v⟩ := e
    cases hc with
    | cons h1 h2 h3 =>
      simp only [Recs.getValue] at h
      split at h
      · rename_i heq
        subst heq
        obtain ⟨o, w1, h4, h5⟩ := M.bind_ok.1 h
        have hp := hr.G (h1 hn) h4
        cases o with
        | none => exact hp.elim
        | some y =>
          simp only [M.pure_eq, Res.ok.injEq] at h5
          rw [← h5.1]
          exact ⟨h2 hn, .cons (fun _ => hp.2) (fun _ => ⟨_, rfl, hp.1⟩) h3⟩
      · obtain ⟨⟨v', cs'⟩, w1, h4, h5⟩ := M.bind_ok.1 h
        simp only [M.pure_eq, Res.ok.injEq] at h5
        have := ih h3 h4
        rw [← h5.1]
        exact ⟨this.1, .cons h1 h2 this.2⟩

theorem wildcardToVariant_good (hr : Good E r) {ctx : Ctx} {path : Prompt} {m' : Option Method}
    {lo hi : Int} {sep : Str} {v : Cmd} {w w' : W}
    (h : r.wildcardToVariant E ctx path m' lo hi sep w = .ok v w') :
    ∃ wc items cs, LangPrompt E ctx.vars path wc ∧ Values E wc items ∧
      ParsesAll E (iterateWeighted items) cs ∧
      v = Cmd.mkVariant (cs.map (fun c => (c, 1))) (min lo items.length) (min hi items.length) sep m' := by
  obtain ⟨wc, w1, h1, h2⟩ := M.bind_ok.1 h
  obtain ⟨items, w2, h3, h4⟩ := M.bind_ok.1 h2
  obtain ⟨opts, w3, h5, h6⟩ := M.bind_ok.1 h4
  replace h5 := M.lift_ok_iff.1 h5
  obtain ⟨h5, rfl⟩ := h5
  simp only [M.pure_eq, Res.ok.injEq] at h6
  obtain ⟨cs, h7, rfl⟩ := mapM_parses h5
  exact ⟨wc, items, cs, sampleFirst_good hr h1, ⟨_, _, h3⟩, h7, h6.1.symm⟩

theorem sampleGens_good {ctx : Ctx} {ss : List Str} {gs : List Gen} {P : Str → Prop}
    (h : sampleGens E ctx ss = .ok gs)
    (hP : ∀ v ∈ ss, ∀ s, LangPrompt E ctx.vars (.inl v) s → P s) : GOkA E gs P := by
  induction ss generalizing gs with
  | nil => simp [sampleGens] at h; subst h; exact .nil
  | cons c cs ih =>
    unfold sampleGens at h
    split at h
    · simp at h
    · rename_i g hg
      split at h
      · simp at h
      · rename_i gs' hgs
        simp at h; subst h
        exact .cons ((sampleGen_GOk hg).weaken (hP c (by simp)) id id)
          (ih hgs (fun v hv => hP v (by simp [hv])))

theorem sampleGens_length {ctx : Ctx} {ss : List Str} {gs : List Gen}
    (h : sampleGens E ctx ss = .ok gs) : gs.length = ss.length := by
  induction ss generalizing gs with
  | nil => simp [sampleGens] at h; subst h; rfl
  | cons c cs ih =>
    unfold sampleGens at h
    split at h
    · simp at h
    · rename_i g hg
      split at h
      · simp at h
      · rename_i gs' hgs
        simp at h; subst h
        simp [ih hgs]


/-! ### Starting a generator -/

theorem variant_combos {ctx : Ctx} {opts : List (Cmd × Rat)} {lo hi : Int} {sep : Str}
    {m : Option Method} (h1 : ¬ SingleWild opts) (h2 : opts ≠ []) {b : Nat} {combo : List Cmd}
    (hc : (b, combo) ∈ boundCombos (opts.map (·.1)) (adjustBounds opts.length lo hi).1
      (adjustBounds opts.length lo hi).2) :
    combo.length = b ∧ (∀ strs, LangAll E ctx.vars combo strs →
      Lang E ctx.vars (.variant opts lo hi sep m) (joined sep strs)) ∧
    (∀ vs, ATexts (combo.map fun c => (Lang E ctx.vars c, Dry E ctx.vars c)) vs →
      Lang E ctx.vars (.variant opts lo hi sep m) (joined sep vs)) := by
  obtain ⟨ha, hb, hm⟩ := (mem_boundCombos (adjust_nonneg _ _ _)).1 hc
  have hl := (mem_getCombos.1 hm).1
  have hb : InBounds opts.length lo hi combo.length := by rw [hl]; exact inBounds_of_adjust ha hb
  have key : ∀ strs, LangAll E ctx.vars combo strs →
      Lang E ctx.vars (.variant opts lo hi sep m) (joined sep strs) := fun strs hs =>
    .variant h1 h2 (getCombos_subperm hm) hb hs
  refine ⟨hl, key, fun vs hv => ?_⟩
  rcases atexts_split hv with h | ⟨pre, d, post, rfl, h3, h4⟩
  · exact key vs h
  · exact .variantDry h1 h2 (getCombos_subperm hm) hb h3 h4

theorem AOkL_of {ctx : Ctx} {l : List (Nat × List Cmd)} {Q : List Str → Prop}
    (hm : ctx.method ≠ .comb)
    (h : ∀ p ∈ l, ∀ vs, ATexts (p.2.map fun c => (Lang E ctx.vars c, Dry E ctx.vars c)) vs → Q vs) :
    AOkL E (l.map (fun p => Arr.start ctx p.2)) Q := by
  induction l with
  | nil => exact .nil
  | cons p l ih =>
    exact .cons (.start hm) (h p (by simp)) (ih (fun q hq => h q (by simp [hq])))

/-- What `startG` does with a variant that is not a single wildcard. -/
theorem startG_variant {ctx : Ctx} {opts : List (Cmd × Rat)} {lo hi : Int} {sep : Str}
    {m : Option Method} {P : Str → Prop} {D D' : Prop} (hsw : ¬ SingleWild opts)
    (h1 : ∀ s, Lang E ctx.vars (.variant opts lo hi sep m) s → P s)
    (h2 : ctx.method = .comb → D ∧ D')
    (h3 : ctx.method ≠ .comb → Dry E ctx.vars (.variant opts lo hi sep m) → D)
    {w w' : W} {g : Gen} (h : startG E r ctx (.variant opts lo hi sep m) w = .ok g w') :
    GOk E g P D D' := by
  have hdone : opts = [] → D := by
    rintro rfl
    by_cases hm : ctx.method = .comb
    · exact (h2 hm).1
    · exact h3 hm .empty
  match opts, h with
  | [], h =>
    simp only [startG, M.pure_eq, Res.ok.injEq] at h
    rw [← h.1]; exact .done (hdone rfl)
  | [(c, wt)], h =>
    have key : (match ctx.method with
      | .random => M.lift (mkGen E.unknown ctx c)
      | .cyc =>
        let b := adjustBounds 1 lo hi
        pure (.cycVar sep ((boundCombos [c] b.1 b.2).map (fun p => Arr.start ctx p.2)))
      | .comb =>
        let b := adjustBounds 1 lo hi
        pure (.combVar ctx sep [] (boundCombos [c] b.1 b.2)) : M W Gen) w = .ok g w' →
        GOk E g P D D' := by
      intro h
      cases hm : ctx.method with
      | random =>
        rw [hm] at h
        obtain ⟨h, -⟩ := M.lift_ok_iff.1 h
        refine (mkGen_GOk_nf h (Or.inl (by simp [hm]))).weaken
          (fun s hs => h1 s (.variantSingle hsw hs)) (fun hd => h3 (by simp [hm]) (.single hsw hd)) False.elim
      | cyc =>
        rw [hm] at h
        simp only [M.pure_eq, Res.ok.injEq] at h
        rw [← h.1]
        refine .cycVar (Q := fun vs => P (joined sep vs)) (AOkL_of (by simp [hm]) ?_) (fun _ h => h)
        rintro ⟨b, combo⟩ hp vs hv
        exact h1 _ ((variant_combos hsw (by simp) (opts := [(c, wt)]) hp).2.2 vs hv)
      | comb =>
        rw [hm] at h
        simp only [M.pure_eq, Res.ok.injEq] at h
        rw [← h.1]
        refine .combVar hm (fun b combo hp => ?_) (h2 hm).1 (h2 hm).2
        have := variant_combos (E := E) (ctx := ctx) (sep := sep) (m := m) hsw (by simp)
          (opts := [(c, wt)]) hp
        exact ⟨this.1, fun strs hs => h1 _ (this.2.1 strs hs)⟩
    cases c with
    | wild => exact absurd ⟨_, _, _, _, rfl⟩ hsw
    | _ => exact key h
  | o1 :: o2 :: rest, h =>
    simp only [startG] at h
    cases hm : ctx.method with
    | random =>
      rw [hm] at h
      simp only [M.pure_eq, Res.ok.injEq] at h
      rw [← h.1]
      exact .randVar (by simp [hm]) (by simp)
        (fun cs strs a b c => h1 _ (.variant hsw (by simp) a b c))
    | cyc =>
      rw [hm] at h
      simp only [M.pure_eq, Res.ok.injEq] at h
      rw [← h.1]
      refine .cycVar (Q := fun vs => P (joined sep vs)) (AOkL_of (by simp [hm]) ?_) (fun _ h => h)
      rintro ⟨b, combo⟩ hp vs hv
      exact h1 _ ((variant_combos hsw (by simp) hp).2.2 vs hv)
    | comb =>
      rw [hm] at h
      simp only [M.pure_eq, Res.ok.injEq] at h
      rw [← h.1]
      refine .combVar hm (fun b combo hp => ?_) (h2 hm).1 (h2 hm).2
      have := variant_combos (E := E) (ctx := ctx) (sep := sep) (m := m) hsw (by simp) hp
      exact ⟨this.1, fun strs hs => h1 _ (this.2.1 strs hs)⟩

theorem startG_good (hr : Good E r) {ctx : Ctx} {c : Cmd} {P : Str → Prop} {D D' : Prop}
    (hg : GOk E (.start ctx c) P D D') (hlit : ∀ s m, c ≠ .lit s m) {w w' : W} {g : Gen}
    (h : startG E r ctx c w = .ok g w') : GOk E g P D D' := by
  cases hg with
  | start h1 h2 h3 =>
    cases c with
    | lit s m => exact absurd rfl (hlit s m)
    | seq toks sep m =>
      obtain ⟨⟨toks', new⟩, w1, h4, h5⟩ := M.bind_ok.1 h
      have hA := assigns_good hr h4
      have nf : (do
          let gens ← M.lift (mkGens E.unknown (ctx.withVars new) toks')
          return .seqNF sep gens : M W Gen) w1 = .ok g w' → GOk E g P D D' := by
        intro h
        obtain ⟨gens, w2, h6, h7⟩ := M.bind_ok.1 h
        replace h6 := M.lift_ok_iff.1 h6
        simp only [M.pure_eq, Res.ok.injEq] at h7
        rw [← h7.1]
        exact .seqNF (mkGens_GOkL h6.1) (fun vs hv => h1 _ (.seq hA (all2_LangAll hv)))
      cases hm : ctx.method with
      | random => rw [hm] at h5; exact nf h5
      | cyc => rw [hm] at h5; exact nf h5
      | comb =>
        rw [hm] at h5
        obtain ⟨coll, w2, h6, h7⟩ := M.bind_ok.1 h5
        simp only [M.pure_eq, Res.ok.injEq] at h7
        rw [← h7.1]
        refine .combSeq (mkColl_good hr h6) (.start hm rfl) (fun vs hv => h1 _ ?_) (h2 hm).1 (h2 hm).2
        have hL := all2_LangAll hv
        cases hL with
        | cons ha hb =>
          cases ha
          obtain ⟨v1, v2, rfl, hc, hd⟩ := langAll_append hb
          cases hd with
          | cons he hf =>
            cases he; cases hf
            exact .seqPad hA hc
    | variant opts lo hi sep m =>
      by_cases hsw : SingleWild opts
      · obtain ⟨path, m', v, wt, rfl⟩ := hsw
        obtain ⟨c, w1, h4, h5⟩ := M.bind_ok.1 h
        simp only [M.pure_eq, Res.ok.injEq] at h5
        rw [← h5.1]
        obtain ⟨wc, items, cs, a1, a2, a3, rfl⟩ := wildcardToVariant_good hr h4
        exact .start (fun s hs => h1 s (.variantWild a1 a2 a3 hs)) h2
          (fun hm hd => h3 hm (.wild a1 a2 a3 hd))
      · exact startG_variant hsw h1 h2 h3 h
    | wild path m v =>
      obtain ⟨wc, w1, h4, h5⟩ := M.bind_ok.1 h
      obtain ⟨items, w2, h6, h7⟩ := M.bind_ok.1 h5
      have hp := sampleFirst_good hr h4
      have hv : Values E wc items := ⟨_, _, h6⟩
      have hitem : ∀ x ∈ items.map Item.content, ∀ s,
          LangPrompt E (ctx.withVars v).vars (.inl x) s → P s := by
        intro x hx s hs
        obtain ⟨it, hit, rfl⟩ := List.mem_map.1 hx
        exact h1 s (.wild hp hv hit hs)
      have hiter : ∀ x ∈ iterateWeighted items, ∀ s,
          LangPrompt E (ctx.withVars v).vars (.inl x) s → P s := by
        intro x hx s hs
        obtain ⟨it, hit, rfl⟩ := mem_iterateWeighted hx
        exact h1 s (.wild hp hv hit hs)
      by_cases he : items.isEmpty = true
      · simp only [he, if_true] at h7
        have : items = [] := by simpa using he
        subst this
        cases path with
        | inl p =>
          obtain ⟨s, w3, h8, h9⟩ := M.bind_ok.1 h7
          simp only [M.pure_eq, Res.ok.injEq] at h8 h9
          rw [← h9.1, ← h8.1]
          exact .rep (h1 _ (.wildMissing hp hv))
        | inr c =>
          obtain ⟨s, w3, h8, h9⟩ := M.bind_ok.1 h7
          simp only [M.pure_eq, Res.ok.injEq] at h9
          rw [← h9.1]
          exact .rep (h1 _ (.wildMissingCmd hp hv (sampleFirst_good hr h8)))
      · simp only [he] at h7
        cases hm : ctx.method with
        | random =>
          rw [hm] at h7
          simp only [Bool.false_eq_true, if_false, M.pure_eq, Res.ok.injEq] at h7
          rw [← h7.1]
          exact .randWild (by simp [Ctx.withVars, hm]) hitem (by simp)
        | cyc =>
          rw [hm] at h7
          simp only [Bool.false_eq_true, if_false] at h7
          obtain ⟨gens, w3, h8, h9⟩ := M.bind_ok.1 h7
          replace h8 := M.lift_ok_iff.1 h8
          simp only [M.pure_eq, Res.ok.injEq] at h9
          rw [← h9.1]
          refine .cycWild (sampleGens_good h8.1 hiter) (fun _ h => h) ?_
          rintro rfl
          have := sampleGens_length h8.1
          exact h3 (by simp [hm]) (.values hp hv (List.eq_nil_of_length_eq_zero this.symm))
        | comb =>
          rw [hm] at h7
          simp only [Bool.false_eq_true, if_false, M.pure_eq, Res.ok.injEq] at h7
          rw [← h7.1]
          exact .combWild (Q := P) (.done trivial) (fun _ h => h) hiter (h2 hm).1 (h2 hm).2
    | assign => simp [startG] at h
    | access => simp [startG] at h
    | wrap wr i m =>
      simp only [startG] at h
      cases hm : ctx.method with
      | random =>
        rw [hm] at h
        obtain ⟨wg, w2, h6, h7⟩ := M.bind_ok.1 h
        obtain ⟨ig, w3, h8, h9⟩ := M.bind_ok.1 h7
        replace h6 := M.lift_ok_iff.1 h6
        replace h8 := M.lift_ok_iff.1 h8
        simp only [M.pure_eq, Res.ok.injEq] at h9
        rw [← h9.1]
        have hn : ctx.method ≠ .comb := by simp [hm]
        exact .zipWrap (mkGen_GOk_nf h6.1 (Or.inl hn)) (mkGen_GOk_nf h8.1 (Or.inl hn))
          (fun w i hw hi => h1 _ (.wrap hw hi .same .same)) (fun hd => h3 hn (.wrapper hd))
          (fun hd => h3 hn (.inner hd))
      | cyc => rw [hm] at h; simp at h
      | comb =>
        rw [hm] at h
        obtain ⟨wg, w2, h6, h7⟩ := M.bind_ok.1 h
        replace h6 := M.lift_ok_iff.1 h6
        simp only [M.pure_eq, Res.ok.injEq] at h7
        rw [← h7.1]
        have sq : ∀ s, Squashed E s (if E.ignoreWs then squashWhitespace s else s) := by
          intro s
          cases hi : E.ignoreWs with
          | true => exact .squash hi
          | false => exact .same
        refine .combWrap (sampleGen_GOk h6.1) (fun w i hw hi => ?_) (h2 hm).1 (h2 hm).2
        cases hw with
        | cmd _ hw =>
          cases hi with
          | cmd _ hi => exact h1 _ (.wrap hw hi (sq _) (sq _))


/-! ### One step -/

theorem GOkA.snoc {q : List Gen} {g : Gen} {P : Str → Prop} (h : GOkA E q P) (hg : GOk E g P True True) :
    GOkA E (q ++ [g]) P := by
  induction q with
  | nil => exact .cons hg .nil
  | cons a q ih => cases h with | cons h1 h2 => exact .cons h1 (ih h2)

theorem AOkL.snoc {q : List Arr} {a : Arr} {P : List Str → Prop} {L} (h : AOkL E q P) (ha : AOk E a L)
    (hv : ∀ vs, ATexts L vs → P vs) : AOkL E (q ++ [a]) P := by
  induction q with
  | nil => exact .cons ha hv .nil
  | cons a q ih => cases h with | cons h1 h2 h3 => exact .cons h1 h2 (ih h3)

theorem stepG_start (hr : Good E r) {ctx : Ctx} {c : Cmd} {P : Str → Prop} {D D' : Prop}
    (hg : GOk E (.start ctx c) P D D') {w w' : W} {o} (h : stepG E r (.start ctx c) w = .ok o w') :
    PostG E P D D' o := by
  have key : (∀ s m, c ≠ .lit s m) → (do let g ← startG E r ctx c; r.G g : M W _) w = .ok o w' →
      PostG E P D D' o := by
    intro hl h
    obtain ⟨g, w1, h1, h2⟩ := M.bind_ok.1 h
    exact hr.G (startG_good hr hg hl h1) h2
  cases c with
  | lit s m =>
    cases hg with
    | start h1 h2 h3 =>
      simp only [stepG] at h
      cases hm : ctx.method with
      | comb =>
        rw [hm] at h
        simp only [M.pure_eq, Res.ok.injEq] at h
        rw [← h.1]
        exact ⟨h1 s .lit, .done (h2 hm).2⟩
      | random =>
        rw [hm] at h
        simp only [M.pure_eq, Res.ok.injEq] at h
        rw [← h.1]
        exact ⟨h1 s .lit, .rep (h1 s .lit)⟩
      | cyc =>
        rw [hm] at h
        simp only [M.pure_eq, Res.ok.injEq] at h
        rw [← h.1]
        exact ⟨h1 s .lit, .rep (h1 s .lit)⟩
  | _ => exact key (by simp) h

theorem stepG_good (hr : Good E r) {g : Gen} {P : Str → Prop} {D D' : Prop} (hg : GOk E g P D D')
    {w w' : W} {o} (h : stepG E r g w = .ok o w') : PostG E P D D' o := by
  cases g with
  | start ctx c => exact stepG_start hr hg h
  | done =>
    cases hg with
    | done h1 =>
      simp only [stepG, M.pure_eq, Res.ok.injEq] at h
      rw [← h.1]; exact h1
  | rep s =>
    cases hg with
    | rep h1 =>
      simp only [stepG, M.pure_eq, Res.ok.injEq] at h
      rw [← h.1]; exact ⟨h1, .rep h1⟩
  | seqNF sep gens =>
    cases hg with
    | seqNF h1 h2 =>
      obtain ⟨⟨vs, gens'⟩, w1, h3, h4⟩ := M.bind_ok.1 h
      have := rotate_good hr h1 h3
      simp only [M.pure_eq, Res.ok.injEq] at h4
      rw [← h4.1]
      exact ⟨h2 _ this.1, .seqNF this.2 h2⟩
  | randVar ctx opts lo hi sep =>
    cases hg with
    | randVar h0 h1 h2 =>
      obtain ⟨k, w1, h3, h4⟩ := M.bind_ok.1 h
      obtain ⟨sel, w2, h5, h6⟩ := M.bind_ok.1 h4
      obtain ⟨gens, w3, h7, h8⟩ := M.bind_ok.1 h6
      replace h7 := M.lift_ok_iff.1 h7
      have hk := randint_ok h3
      have hnn := adjust_nonneg opts.length lo hi
      obtain ⟨hs, hlen⟩ := choose_ok h5
      have hlen := hlen (by simpa using h1) (by omega)
      rw [Int.min_eq_right hk.2] at hlen
      have hb : InBounds opts.length lo hi sel.length := by
        apply inBounds_of_adjust <;> omega
      have hnext : GOk E (.randVar ctx opts (adjustBounds opts.length lo hi).1
          (adjustBounds opts.length lo hi).2 sep) P D' D' :=
        .randVar h0 h1 (fun cs strs a b c => h2 cs strs a (inBounds_of_adjust2 b) c)
      have hL := mkGens_GOkL h7.1
      have run : ∀ (w3 : W), (do
          let (vs, _) ← r.rotate gens
          return some (joined sep vs, .randVar ctx opts (adjustBounds opts.length lo hi).1
            (adjustBounds opts.length lo hi).2 sep) : M W (Option (Str × Gen))) w3 = .ok o w' →
          PostG E P D D' o := by
        intro w3 h
        obtain ⟨⟨vs, gens'⟩, w4, h9, h10⟩ := M.bind_ok.1 h
        simp only [M.pure_eq, Res.ok.injEq] at h10
        rw [← h10.1]
        exact ⟨h2 _ _ hs hb (all2_LangAll (rotate_good hr hL h9).1), hnext⟩
      cases gens with
      | nil =>
        simp only [M.pure_eq, Res.ok.injEq] at h8
        rw [← h8.1]
        cases sel with
        | nil => 
          refine ⟨?_, hnext⟩
          have hj : joined sep [] = [] := by
            unfold joined removeprefix removesuffix pyJoin
            by_cases hse : sep = [] <;> simp [hse, startsWith, endsWith]
          have := h2 [] [] hs hb .nil
          rwa [hj] at this
        | cons _ _ => cases hL
      | cons g gs => exact run w3 h8
  | randWild ctx items buf =>
    cases hg with
    | randWild h0 h1 h2 =>
      obtain ⟨⟨value, buf'⟩, w1, h3, h4⟩ := M.bind_ok.1 h
      obtain ⟨g, w2, h5, h6⟩ := M.bind_ok.1 h4
      obtain ⟨o1, w3, h7, h8⟩ := M.bind_ok.1 h6
      replace h5 := M.lift_ok_iff.1 h5
      obtain ⟨hv, hb⟩ := weightedNext_ok h3 h2
      have := hr.G (sampleGen_GOk h5.1) h7
      cases o1 with
      | none => exact hr.G (.randWild h0 h1 hb) h8
      | some x =>
        obtain ⟨v, g'⟩ := x
        simp only [M.pure_eq, Res.ok.injEq] at h8
        rw [← h8.1]
        exact ⟨h1 _ hv _ this.1, .randWild h0 h1 hb⟩
  | zipWrap wg ig =>
    cases hg with
    | zipWrap h1 h2 h3 h4 h5 =>
      obtain ⟨o1, w1, h6, h7⟩ := M.bind_ok.1 h
      have a := hr.G h1 h6
      cases o1 with
      | none =>
        simp only [M.pure_eq, Res.ok.injEq] at h7
        rw [← h7.1]; exact h4 a
      | some x =>
        obtain ⟨v, g'⟩ := x
        obtain ⟨o2, w2, h8, h9⟩ := M.bind_ok.1 h7
        have b := hr.G h2 h8
        cases o2 with
        | none =>
          simp only [M.pure_eq, Res.ok.injEq] at h9
          rw [← h9.1]; exact h5 b
        | some y =>
          obtain ⟨v', g''⟩ := y
          simp only [M.pure_eq, Res.ok.injEq] at h9
          rw [← h9.1]
          exact ⟨h3 _ _ a.1 b.1, .zipWrap a.2 b.2 h3 False.elim False.elim⟩
  | cycVar sep q =>
    cases hg with
    | cycVar h1 h2 =>
      cases q with
      | nil => simp [stepG] at h
      | cons a q =>
        cases h1 with
        | cons h3 h4 h5 =>
          obtain ⟨o1, w1, h6, h7⟩ := M.bind_ok.1 h
          have b := hr.A h3 h6
          cases o1 with
          | none => simp at h7
          | some x =>
            obtain ⟨vs, a'⟩ := x
            simp only [M.pure_eq, Res.ok.injEq] at h7
            rw [← h7.1]
            exact ⟨h2 _ (h4 _ b.1), .cycVar (h5.snoc b.2 h4) h2⟩
  | cycWild q =>
    cases hg with
    | cycWild h1 h2 h3 =>
      cases q with
      | nil =>
        simp only [stepG, M.pure_eq, Res.ok.injEq] at h
        rw [← h.1]; exact h3 rfl
      | cons g q =>
        cases h1 with
        | cons h4 h5 =>
          obtain ⟨⟨v, g'⟩, w1, h6, h7⟩ := M.bind_ok.1 h
          have b := next!_good hr h4 h6
          simp only [M.pure_eq, Res.ok.injEq] at h7
          rw [← h7.1]
          exact ⟨h2 _ b.1, .cycWild (h5.snoc b.2) h2 (by simp)⟩
  | combSeq sep coll fr =>
    cases hg with
    | combSeq h1 h2 h3 h4 h5 =>
      obtain ⟨⟨coll', o1⟩, w1, h6, h7⟩ := M.bind_ok.1 h
      obtain ⟨b1, b2⟩ := hr.S h1 h2 h6
      cases o1 with
      | none =>
        simp only [M.pure_eq, Res.ok.injEq] at h7
        rw [← h7.1]; exact h4
      | some x =>
        obtain ⟨vs, fr'⟩ := x
        simp only [M.pure_eq, Res.ok.injEq] at h7
        rw [← h7.1]
        exact ⟨h3 _ b2.1, .combSeq b1 b2.2 h3 h5 h5⟩
  | combVar ctx sep seen pend =>
    cases hg with
    | combVar h0 h1 h2 h3 =>
      cases pend with
      | nil =>
        simp only [stepG, M.pure_eq, Res.ok.injEq] at h
        rw [← h.1]; exact h2
      | cons p pend =>
        obtain ⟨b, combo⟩ := p
        simp only [stepG] at h
        obtain ⟨hl, hP⟩ := h1 b combo (by simp)
        exact hr.G (.combVarIn h0 (fun b' c' hc => h1 b' c' (by simp [hc])) .start
          (by simpa using hl) (fun strs hs => hP strs (all2_LangAll hs)) h2 h3) h
  | combVarIn ctx sep seen pend b fr =>
    cases hg with
    | combVarIn h0 h1 h2 h3 h4 h5 h6 =>
      obtain ⟨o1, w1, h7, h8⟩ := M.bind_ok.1 h
      have a := hr.P h2 h7
      cases o1 with
      | none => exact hr.G (.combVar h0 h1 h5 h6) h8
      | some x =>
        obtain ⟨vs, fr'⟩ := x
        dsimp only at h8
        by_cases hc : (dedupe (fun s : Str => s) vs).length = b ∧
            ¬ seen.contains (dedupe (fun s : Str => s) vs)
        · rw [if_pos hc] at h8
          simp only [M.pure_eq, Res.ok.injEq] at h8
          have : dedupe (fun s : Str => s) vs = vs :=
            dedupe_eq_of_length (by rw [hc.1, a.1.length, h3])
          rw [← h8.1, this]
          exact ⟨h4 _ a.1, .combVarIn h0 h1 a.2 h3 h4 h6 h6⟩
        · rw [if_neg hc] at h8
          exact hr.G (.combVarIn h0 h1 a.2 h3 h4 h5 h6) h8
  | combWild ctx vals cur =>
    cases hg with
    | combWild h1 h2 h3 h4 h5 =>
      obtain ⟨o1, w1, h7, h8⟩ := M.bind_ok.1 h
      have a := hr.G h1 h7
      cases o1 with
      | some x =>
        obtain ⟨v, g'⟩ := x
        simp only [M.pure_eq, Res.ok.injEq] at h8
        rw [← h8.1]
        exact ⟨h2 _ a.1, .combWild a.2 h2 h3 h5 h5⟩
      | none =>
        cases vals with
        | nil =>
          simp only [M.pure_eq, Res.ok.injEq] at h8
          rw [← h8.1]; exact h4
        | cons v vals =>
          obtain ⟨g, w2, h9, h10⟩ := M.bind_ok.1 h8
          replace h9 := M.lift_ok_iff.1 h9
          exact hr.G (.combWild (sampleGen_GOk h9.1) (h3 v (by simp))
            (fun x hx => h3 x (by simp [hx])) h4 h5) h10
  | combWrap ctx inner wg =>
    cases hg with
    | combWrap h1 h2 h3 h4 =>
      obtain ⟨o1, w1, h7, h8⟩ := M.bind_ok.1 h
      have a := hr.G h1 h7
      cases o1 with
      | none =>
        simp only [M.pure_eq, Res.ok.injEq] at h8
        rw [← h8.1]; exact h3
      | some x =>
        obtain ⟨v, g'⟩ := x
        obtain ⟨g, w2, h9, h10⟩ := M.bind_ok.1 h8
        replace h9 := M.lift_ok_iff.1 h9
        exact hr.G (.combWrapIn a.2 (sampleGen_GOk h9.1) h2 (fun i hi => h2 _ _ a.1 hi) h3 h4) h10
  | combWrapIn ctx inner wg w0 ig =>
    cases hg with
    | combWrapIn h1 h2 h3 h4 h5 h6 =>
      obtain ⟨o1, w1, h7, h8⟩ := M.bind_ok.1 h
      have a := hr.G h2 h7
      cases o1 with
      | none => exact hr.G (.combWrap h1 h3 h5 h6) h8
      | some x =>
        obtain ⟨v, g'⟩ := x
        simp only [M.pure_eq, Res.ok.injEq] at h8
        rw [← h8.1]
        exact ⟨h4 _ a.1, .combWrapIn h1 a.2 h3 h4 h6 h6⟩
  | squash g =>
    cases hg with
    | squash h1 h2 h3 h4 =>
      obtain ⟨o1, w1, h7, h8⟩ := M.bind_ok.1 h
      have a := hr.G h1 h7
      cases o1 with
      | none =>
        simp only [M.pure_eq, Res.ok.injEq] at h8
        rw [← h8.1]; exact h3 a
      | some x =>
        obtain ⟨v, g'⟩ := x
        simp only [M.pure_eq, Res.ok.injEq] at h8
        rw [← h8.1]
        exact ⟨h2 _ a.1, .squash a.2 h2 h4 h4⟩

theorem stepA_good (hr : Good E r) {a : Arr} {L} (ha : AOk E a L) {w w' : W} {o}
    (h : stepA E r a w = .ok o w') :
    PostA E L o := by
  cases ha with
  | done =>
    simp only [stepA, M.pure_eq, Res.ok.injEq] at h
    rw [← h.1]; trivial
  | nil =>
    simp only [stepA, M.pure_eq, Res.ok.injEq] at h
    rw [← h.1]; exact ⟨.nil, .nil⟩
  | @start ctx combo hm =>
    cases combo with
    | nil =>
      simp only [stepA, M.pure_eq, Res.ok.injEq] at h
      rw [← h.1]; exact ⟨.nil, .nil⟩
    | cons c cs =>
      obtain ⟨g, w1, h1, h2⟩ := M.bind_ok.1 h
      replace h1 := M.lift_ok_iff.1 h1
      exact hr.A (.node (mkGen_GOk_nf h1.1 (Or.inl hm)) id (.start hm)) h2
  | @node g rest P D D0 L hg hd hrest =>
    obtain ⟨o1, w1, h1, h2⟩ := M.bind_ok.1 h
    have a := hr.A hrest h1
    cases o1 with
    | none =>
      simp only [M.pure_eq, Res.ok.injEq] at h2
      rw [← h2.1]; trivial
    | some x =>
      obtain ⟨vs, rest'⟩ := x
      obtain ⟨o2, w2, h3, h4⟩ := M.bind_ok.1 h2
      have b := hr.G hg h3
      cases o2 with
      | none =>
        simp only [M.pure_eq, Res.ok.injEq] at h4
        rw [← h4.1]; exact ⟨.dry (hd b), .done⟩
      | some y =>
        obtain ⟨v, g'⟩ := y
        simp only [M.pure_eq, Res.ok.injEq] at h4
        rw [← h4.1]
        exact ⟨.cons b.1 a.1, .node b.2 False.elim a.2⟩

theorem ownNonfinite_of {ctx : Ctx} {c : Cmd} (hm : ctx.method = .comb)
    (h : (ctx.effective c).nonfinite = true) : c.ownNonfinite := by
  unfold Ctx.effective at h
  split at h
  · rename_i m hc
    cases m with
    | comb => simp [Method.nonfinite] at h
    | random => exact Or.inl hc
    | cyc => exact Or.inr hc
  · simp [hm, Method.nonfinite] at h

theorem stepS_good (hr : Good E r) {vars} {coll : Coll} {fr : SFrame} {Qs} (hc : CollOk E vars coll)
    (hs : SOk E vars fr Qs) {w w' : W} {o} (h : stepS E r coll fr w = .ok o w') :
    CollOk E vars o.1 ∧ PostS E vars Qs o.2 := by
  cases hs with
  | done =>
    simp only [stepS, M.pure_eq, Res.ok.injEq] at h
    rw [← h.1]; exact ⟨hc, trivial⟩
  | @start _ ctx cmds hm hv =>
    cases cmds with
    | nil =>
      simp only [stepS, M.pure_eq, Res.ok.injEq] at h
      rw [← h.1]; exact ⟨hc, .nil, .done⟩
    | cons c cs =>
      simp only [stepS] at h
      by_cases hn : (ctx.effective c).nonfinite = true
      · rw [if_pos hn] at h
        exact hr.S hc (.nf (ownNonfinite_of hm hn) (.start hm hv)) h
      · rw [if_neg hn] at h
        obtain ⟨g, w1, h1, h2⟩ := M.bind_ok.1 h
        replace h1 := M.lift_ok_iff.1 h1
        have := mkGen_GOk h1.1
        rw [hv] at this
        exact hr.S hc (.fin hm hv this) h2
  | nf hn hrest =>
    obtain ⟨⟨coll', o1⟩, w1, h1, h2⟩ := M.bind_ok.1 h
    obtain ⟨a1, a2⟩ := hr.S hc hrest h1
    cases o1 with
    | none =>
      simp only [M.pure_eq, Res.ok.injEq] at h2
      rw [← h2.1]; exact ⟨a1, trivial⟩
    | some x =>
      obtain ⟨vs, rest'⟩ := x
      obtain ⟨⟨v, coll''⟩, w2, h3, h4⟩ := M.bind_ok.1 h2
      obtain ⟨⟨s, hs, hl⟩, hc'⟩ := getValue_good hr hn a1 h3
      dsimp only at hs
      subst hs
      simp only [M.pure_eq, Res.ok.injEq] at h4
      rw [← h4.1]
      exact ⟨hc', .cons hl a2.1, .nf hn a2.2⟩
  | fin hm hv hg =>
    obtain ⟨o1, w1, h1, h2⟩ := M.bind_ok.1 h
    have a := hr.G hg h1
    cases o1 with
    | none =>
      simp only [M.pure_eq, Res.ok.injEq] at h2
      rw [← h2.1]; exact ⟨hc, trivial⟩
    | some x =>
      obtain ⟨v, g'⟩ := x
      exact hr.S hc (.finIn hm hv a.2 a.1 (.start hm hv)) h2
  | finIn hm hv hg hq hcur =>
    obtain ⟨⟨coll', o1⟩, w1, h1, h2⟩ := M.bind_ok.1 h
    obtain ⟨a1, a2⟩ := hr.S hc hcur h1
    cases o1 with
    | none => exact hr.S a1 (.fin hm hv hg) h2
    | some x =>
      obtain ⟨vs, cur'⟩ := x
      simp only [M.pure_eq, Res.ok.injEq] at h2
      rw [← h2.1]
      exact ⟨a1, .cons hq a2.1, .finIn hm hv hg hq a2.2⟩

theorem stepP_good (hr : Good E r) {fr : PFrame} {Qs} (hs : POk E fr Qs) {w w' : W} {o}
    (h : stepP E r fr w = .ok o w') :
    PostP E Qs o := by
  cases hs with
  | done =>
    simp only [stepP, M.pure_eq, Res.ok.injEq] at h
    rw [← h.1]; trivial
  | @start ctx cmds =>
    cases cmds with
    | nil =>
      simp only [stepP, M.pure_eq, Res.ok.injEq] at h
      rw [← h.1]; exact ⟨.nil, .done⟩
    | cons c cs =>
      obtain ⟨g, w1, h1, h2⟩ := M.bind_ok.1 h
      replace h1 := M.lift_ok_iff.1 h1
      by_cases hn : (ctx.effective c).nonfinite = true
      · rw [if_pos hn] at h2
        exact hr.P (.nf (mkGen_GOk h1.1) .start) h2
      · rw [if_neg hn] at h2
        exact hr.P (.fin (mkGen_GOk h1.1)) h2
  | nf hg hrest =>
    obtain ⟨o1, w1, h1, h2⟩ := M.bind_ok.1 h
    have a := hr.P hrest h1
    cases o1 with
    | none =>
      simp only [M.pure_eq, Res.ok.injEq] at h2
      rw [← h2.1]; trivial
    | some x =>
      obtain ⟨vs, rest'⟩ := x
      obtain ⟨⟨v, g'⟩, w2, h3, h4⟩ := M.bind_ok.1 h2
      have b := next!_good hr hg h3
      simp only [M.pure_eq, Res.ok.injEq] at h4
      rw [← h4.1]
      exact ⟨.cons b.1 a.1, .nf b.2 a.2⟩
  | fin hg =>
    obtain ⟨o1, w1, h1, h2⟩ := M.bind_ok.1 h
    have a := hr.G hg h1
    cases o1 with
    | none =>
      simp only [M.pure_eq, Res.ok.injEq] at h2
      rw [← h2.1]; trivial
    | some x =>
      obtain ⟨v, g'⟩ := x
      exact hr.P (.finIn a.2 a.1 .start) h2
  | finIn hg hq hcur =>
    obtain ⟨o1, w1, h1, h2⟩ := M.bind_ok.1 h
    have a := hr.P hcur h1
    cases o1 with
    | none => exact hr.P (.fin hg) h2
    | some x =>
      obtain ⟨vs, cur'⟩ := x
      simp only [M.pure_eq, Res.ok.injEq] at h2
      rw [← h2.1]
      exact ⟨.cons hq a.1, .finIn hg hq a.2⟩

end


/-- `next` preserves the invariant, whatever the fuel. -/
theorem recs_good (E : Env W) (n : Nat) : Good E (recs E n) := by
  induction n with
  | zero =>
    constructor <;> intros <;> rename_i h <;> simp [recs] at h
  | succ n ih =>
    exact ⟨fun hg _ _ _ h => stepG_good ih hg h, fun ha _ _ _ h => stepA_good ih ha h,
      fun hc hs _ _ _ h => stepS_good ih hc hs h, fun hp _ _ _ h => stepP_good ih hp h⟩

/-- Everything collected from a generator satisfies its predicate. -/
theorem collect_good {E : Env W} {n k : Nat} {g : Gen} {P : Str → Prop} {D D' : Prop}
    (hg : GOk E g P D D') (w : W) : ∀ s ∈ (collect E n k g w).1, P s := by
  induction k generalizing g D D' w with
  | zero => simp [collect]
  | succ k ih =>
    intro s hs
    unfold collect at hs
    split at hs
    · simp at hs
    · rename_i v g' w' h
      have := (recs_good E n).G hg h
      rcases List.mem_cons.1 hs with rfl | hs
      · exact this.1
      · exact ih this.2 w' s hs
    · simp at hs
    · simp at hs

end Verif
