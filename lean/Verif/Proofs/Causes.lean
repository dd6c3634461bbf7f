import Verif.Proofs.Dry
import Verif.Proofs.ParserShape
/-! Every exception raised while sampling has a cause in the template. -/

namespace Verif
open Spec
variable {W : Type} {E : Env W} {ctx : Ctx} {p : Prompt}

/-- Each of the variables is used somewhere, and sampling it needs `c`. -/
def Under (E : Env W) (ctx : Ctx) (p : Prompt) (b : List Str) (c : Cmd) : Prop :=
  ∀ n ∈ b, ∃ d, Involved E ctx p (.access n d) ∧ Relation.TransGen (Needs E ctx p) (.access n d) c

theorem Under.step {b : List Str} {c c' : Cmd} (h : Under E ctx p b c) (hs : Needs E ctx p c c') :
    Under E ctx p b c' := by
  intro n hn
  obtain ⟨d, h1, h2⟩ := h n hn
  exact ⟨d, h1, h2.tail hs⟩

theorem Under.push {b : List Str} {n : Str} {d : Option Cmd} {c : Cmd} (h : Under E ctx p b (.access n d))
    (ho : Involved E ctx p (.access n d)) (hs : Needs E ctx p (.access n d) c) : Under E ctx p (n :: b) c := by
  intro x hx
  rcases List.mem_cons.1 hx with rfl | hx
  · exact ⟨d, ho, .single hs⟩
  · exact h.step hs x hx

theorem Spec.Stray.occurs {c : Cmd} (h : Spec.Stray E ctx p c) : Involved E ctx p c := by
  cases h with
  | template h => exact .template h
  | text h h' => exact .text h h'
  | var h => exact .var h
  | unknown h => exact .unknown h
  | part h h' _ => exact .part h h'

theorem Spec.Defines.stray {n : Str} {c : Cmd} (h : Spec.Defines E ctx p n c) : Stray E ctx p c := by
  cases h with
  | var h => exact .var h
  | assign h => exact .part h .assigned (by simp)
  | param h h' => exact .part h (.param h') (by simp)

/-- The commands that may be sampled while the variables `b` are being resolved. -/
inductive Sampled (E : Env W) (ctx : Ctx) (p : Prompt) (b : List Str) : Cmd → Prop
  | occurs {c} : Involved E ctx p c → Under E ctx p b c → (Stray E ctx p c ∨ ∀ n v i o, c ≠ .assign n v i o) →
      Sampled E ctx p b c
  | lit {s} : Sampled E ctx p b (.lit s none)
  | sentinel : Asks E ctx p .comb → Sampled E ctx p b sentinel
  | expanded {path v opts lo hi sep m} : Involved E ctx p (.wild path m v) → 0 ≤ max lo hi →
      (∀ o ∈ opts, o.2 = 1 ∧ Under E ctx p b o.1 ∧ Stray E ctx p o.1) →
      (∀ o ∈ opts, ∀ path m v, o.1 = .wild path m v → Lone E ctx p path m v) →
      (opts = [] → Barren E ctx p) →
      (2 ≤ min lo hi → ∃ opts' lo' hi' sep' m', Involved E ctx p (.variant opts' lo' hi' sep' m') ∧ SingleWild opts' ∧
        2 ≤ min lo' hi') →
      Sampled E ctx p b (.variant opts lo hi sep m)

theorem Sampled.stray {b : List Str} {c c' : Cmd} (h : Involved E ctx p c) (hu : Under E ctx p b c)
    (hp : Part E c c') (hn : ∀ toks sep m, c ≠ .seq toks sep m) : Sampled E ctx p b c' :=
  .occurs (.part h hp) (hu.step (.part hp)) (.inl (.part h hp hn))

theorem Sampled.wild {b : List Str} {path : Prompt} {m : Option Method} {v : List (Str × Cmd)}
    (h : Sampled E ctx p b (.wild path m v)) :
    Involved E ctx p (.wild path m v) ∧ Under E ctx p b (.wild path m v) := by
  cases h with
  | occurs h1 h2 _ => exact ⟨h1, h2⟩

theorem Sampled.access {b : List Str} {n : Str} {d : Option Cmd} (h : Sampled E ctx p b (.access n d)) :
    Involved E ctx p (.access n d) ∧ Under E ctx p b (.access n d) := by
  cases h with
  | occurs h1 h2 _ => exact ⟨h1, h2⟩

theorem Sampled.wrap {b : List Str} {w i : Cmd} {m : Option Method} (h : Sampled E ctx p b (.wrap w i m)) :
    Involved E ctx p (.wrap w i m) ∧ Under E ctx p b (.wrap w i m) := by
  cases h with
  | occurs h1 h2 _ => exact ⟨h1, h2⟩

theorem Sampled.seq {b : List Str} {toks : List Cmd} {sep : Str} {m : Option Method}
    (h : Sampled E ctx p b (.seq toks sep m)) :
    Involved E ctx p (.seq toks sep m) ∧ Under E ctx p b (.seq toks sep m) := by
  cases h with
  | occurs h1 h2 _ => exact ⟨h1, h2⟩

theorem Sampled.option {b : List Str} {opts : List (Cmd × Rat)} {lo hi : Int} {sep : Str} {m : Option Method}
    (h : Sampled E ctx p b (.variant opts lo hi sep m)) {o : Cmd × Rat} (ho : o ∈ opts) :
    Involved E ctx p o.1 ∧ Under E ctx p b o.1 ∧ Stray E ctx p o.1 := by
  cases h with
  | occurs h1 h2 _ =>
    exact ⟨.part h1 (.option ho), h2.step (.part (.option ho)), .part h1 (.option ho) (by simp)⟩
  | expanded _ _ h _ _ _ => exact ⟨(h o ho).2.2.occurs, (h o ho).2⟩

theorem iterateWeighted_nil {items : List Item} (h : iterateWeighted items = []) :
    ∀ i ∈ items, i.weight.getD 1 < 1 := by
  intro i hi
  simp only [iterateWeighted, List.flatMap_eq_nil_iff, List.replicate_eq_nil_iff] at h
  have h1 := h i hi
  by_contra hlt
  have h2 : (1 : Int) ≤ i.w.floor := Rat.le_floor_iff.2 (by simpa [Item.w] using hlt)
  omega

/-- The invariant whose exceptions are those with a cause. -/
def causeInv (E : Env W) (ctx : Ctx) (p : Prompt) : Inv E where
  Q := Sampled E ctx p
  B n c := (∃ s, c = .lit s none) ∨ Defines E ctx p n c
  MM := Asks E ctx p
  V := ctx.vars
  S := Cause E ctx p
  method {b c m} h hm := by
    cases h with
    | occurs h _ _ => exact .inr ⟨c, h, hm⟩
    | lit => cases hm
    | sentinel h => cases hm; exact h
    | expanded h => exact .inr ⟨_, h, hm⟩
  token h hc hn := .occurs (.part h.seq.1 (.token hc)) (h.seq.2.step (.part (.token hc))) (.inr hn)
  assigned h hc :=
    have ho := Involved.part h.seq.1 (.token hc)
    ⟨.inr (.assign ho), .stray ho (h.seq.2.step (.part (.token hc))) .assigned (by simp)⟩
  option h ho := .occurs (h.option ho).1 (h.option ho).2.1 (.inl (h.option ho).2.2)
  path h := .stray h.wild.1 h.wild.2 .path (by simp)
  pathText h h' := .stray h.wild.1 h.wild.2 (.pathText h') (by simp)
  param h h' := .inr (.param h.wild.1 h')
  value h h0 h1 h2 h3 := .stray h.wild.1 h.wild.2 (.value h0 h1 h2 h3) (by simp)
  wrapper h := .stray h.wrap.1 h.wrap.2 .wrapper (by simp)
  inner h := .stray h.wrap.1 h.wrap.2 .inner (by simp)
  sentinel h := .sentinel h
  bindLit := .inl ⟨_, rfl⟩
  var {b n d c} h _ hb := by
    rcases hb with ⟨s, rfl⟩ | hb
    · exact .lit
    · exact .occurs hb.stray.occurs (h.access.2.push h.access.1 (.variable hb)) (.inl hb.stray)
  default h _ := .occurs (.part h.access.1 .default) (h.access.2.push h.access.1 (.part .default))
    (.inl (.part h.access.1 .default (by simp)))
  unknown h _ hu := .occurs (.unknown hu) (h.access.2.push h.access.1 (.unknown hu)) (.inl (.unknown hu))
  expand {b path m v wt lo hi sep m' wc items opts} h hn hv ho he := by
    have hw := h.option (List.mem_cons_self ..)
    have hl : Lone E ctx p path m v := by
      cases h with
      | occurs h _ _ => exact .variant h
      | expanded _ _ _ h _ _ => exact h _ (List.mem_cons_self ..) _ _ _ rfl
    refine .expanded hw.1 (by simp only [normBounds]; omega) ?_ ?_ ?_ ?_
    · intro o ho'
      obtain ⟨h1, i, hi, h2⟩ := ho o ho'
      exact ⟨h1, hw.2.1.step (.part (.value hn hv hi h2)), .part hw.1 (.value hn hv hi h2) (by simp)⟩
    · intro o ho' path' m' v' e
      obtain ⟨h1, i, hi, h2⟩ := ho o ho'
      exact .value hl hn hv hi (e ▸ h2)
    · exact fun h => .expansion hl hn hv (iterateWeighted_nil (he h))
    · intro h2
      have h2' : 2 ≤ min lo hi := by simp only [normBounds] at h2; omega
      cases h with
      | occurs h _ _ => exact ⟨_, _, _, _, _, h, ⟨_, _, _, _, rfl⟩, h2'⟩
      | expanded _ _ _ _ _ h => exact h h2'
  undefinedErr {b n d vars} h hv hbase hu := by
    obtain ⟨h1, h2⟩ := hu
    split at h2
    · rename_i c hl
      rcases hv _ (mem_of_lookup hl) with ⟨s, hs⟩ | hd
      · dsimp only at hs; subst hs; cases h2
      · exact .emptyDefinition h.access.1 h1 hd h2
    · rename_i hl
      refine .undefined h.access.1 h1 ?_ h2
      intro x hx hn
      rw [List.lookup_eq_none_iff] at hl
      have := hl x (hbase x hx)
      simp [hn] at this
  loopErr h hn := by
    obtain ⟨d, h1, h2⟩ := h.access.2 _ hn
    exact .recursion h1 h2
  assignErr {b n v i o} h := by
    cases h with
    | occurs _ _ h3 =>
      rcases h3 with h3 | h3
      · exact .assignment h3
      · exact absurd rfl (h3 n v i o)
  wrapErr h hm := .wrap h.wrap.1 hm
  nameErr h he := .name h.wild.1 he
  valueErr h h0 h1 h2 h3 := .value h.wild.1 h0 h1 h2 h3
  managerErr h h0 h1 := .manager h.wild.1 h0 h1
  weightsErr {b opts lo hi sep m} h hm hl hd := by
    cases h with
    | occurs h1 _ _ => exact .weights h1 hm hl hd
    | expanded _ h0 h _ _ _ =>
      refine absurd ⟨h0, ?_, ?_⟩ hd
      · intro x hx
        obtain ⟨o, ho, rfl⟩ := List.mem_map.1 hx
        rw [(h o ho).1]; decide
      · have : (opts.map (·.2)).countP (fun x => decide (0 < x)) = (opts.map (·.2)).length := by
          rw [List.countP_eq_length]
          intro x hx
          obtain ⟨o, ho, rfl⟩ := List.mem_map.1 hx
          rw [(h o ho).1]; decide
        rw [this, List.length_map]
        omega
  itemsErr h hm h0 h1 h2 h3 := .values h.wild.1 hm h0 h1 h2 h3
  optionsErr h := by
    cases h with
    | occurs h _ _ => exact .barren (.options h)
    | expanded _ _ _ _ h _ => exact .barren (h rfl)
  listedErr h hm h0 h1 h2 h3 := .barren (.listed h.wild.1 hm h0 h1 h2 (iterateWeighted_nil h3))
  contentErr h hm h0 h1 h2 h3 := .barren (.content h.wild.1 hm h0 h1 h2 h3)
  emptyTextErr h := .barren (.nameless h.wild.1)
  emptyPathErr h he := .barren (.emptyName h.wild.1 he)
  selectErr {b opts lo hi sep m} h hm hs hn := by
    cases h with
    | occurs h _ _ =>
      by_cases h0 : max lo hi < 0
      · exact .barren (.negative h hm h0)
      · exact .barren (.several h hm (.inl (by omega)) (by omega))
    | expanded _ h0 _ _ _ h =>
      have hmin : 2 ≤ min lo hi := by clear h; omega
      obtain ⟨_, _, _, _, _, h1, h2, h3⟩ := h hmin
      exact .barren (.several h1 hm (.inr h2) h3)
  emptyWrapErr h hm he := .barren (.wrap h.wrap.1 hm he)

theorem samplePrompts_cause {n k : Nat} {w w' : W} {e : Err} (hb : ctx.being = [])
    (h : (samplePrompts E n ctx p k w).2 = .raised e w') : Cause E ctx p e := by
  refine Inv.samplePrompts_S (I := causeInv E ctx p) ⟨.inl rfl, fun x hx => .inr (.var hx), fun _ h => h⟩ ?_ h
  have hu : ∀ c, Under E ctx p ctx.being c := by intro c n hn; rw [hb] at hn; cases hn
  cases p with
  | inl s =>
    exact ⟨fun c hc => .occurs (.text rfl hc) (hu c) (.inl (.text rfl hc)), fun e he => .template rfl he⟩
  | inr c => exact .occurs (.template rfl) (hu c) (.inl (.template rfl))

/-! ### Templates given as texts -/

/-- What the parts of a parsed template look like. -/
def Formed (c : Cmd) : Prop := Shaped true c ∨ ShapedPath c ∨ ∃ s, c = .lit s none

theorem shaped_top {top : Bool} {c : Cmd} (h : Shaped top c) : Shaped true c := by
  match h with
  | .lit h => exact .lit h
  | .seq h1 h2 h3 => exact .seq h1 (fun c hc => shaped_top (h2 c hc)) h3
  | .variant h1 h2 h3 h4 h5 => exact .variant h1 h2 h3 h4 h5
  | .named h1 h2 h3 => exact .named h1 h2 h3
  | .path h1 h2 h3 h4 => exact .path h1 h2 h3 h4
  | .access h => exact .access h
  | .accessD h h' => exact .accessD h h'
  | .assign h h' => exact .assign h h'
  | .wrap h h' => exact .wrap h h'

theorem shapedPathPart_formed {c : Cmd} (h : ShapedPathPart c) : Formed c := by
  cases h with
  | lit h => exact .inr (.inr ⟨_, rfl⟩)
  | variant h => exact .inl (shaped_top h)
  | access h => exact .inr (.inl (.part (.access h)))

theorem formed_part {cfg : ParserCfg} (hE : E.parse = parse cfg) {c c' : Cmd} (h : Formed c) (hp : Part E c c') :
    Formed c' := by
  have hpart : ∀ {c}, ShapedPathPart c → Part E c c' → Formed c' := by
    intro c h hp
    cases h with
    | lit => cases hp
    | variant h =>
      cases h with
      | variant _ h _ _ _ => cases hp with | option ho => exact .inl (shaped_top (h _ ho))
    | access => cases hp with | default => exact .inr (.inr ⟨_, rfl⟩)
  rcases h with h | h | ⟨s, rfl⟩
  · cases h with
    | lit => cases hp
    | seq _ h _ => cases hp with | token hc => exact .inl (h _ hc)
    | variant _ h _ _ _ => cases hp with | option ho => exact .inl (shaped_top (h _ ho))
    | named _ h _ =>
      cases hp with
      | pathText h => exact .inl (parse_shaped (hE ▸ h))
      | param hb => exact .inl (h _ hb)
      | value _ _ _ h => exact .inl (parse_shaped (hE ▸ h))
    | path hc _ h _ =>
      cases hp with
      | path => exact .inr (.inl hc)
      | param hb => exact .inl (h _ hb)
      | value _ _ _ h => exact .inl (parse_shaped (hE ▸ h))
    | access => cases hp
    | accessD _ h => cases hp with | default => exact .inl (shaped_top h)
    | assign _ h => cases hp with | assigned => exact .inl (shaped_top h)
    | wrap h h' =>
      cases hp with
      | wrapper => exact .inl (shaped_top h)
      | inner => exact .inl (shaped_top h')
  · cases h with
    | part h => exact hpart h hp
    | seq _ h => cases hp with | token hc => exact shapedPathPart_formed (h _ hc)
  · cases hp

theorem occurs_formed {cfg : ParserCfg} (hf : FromText E cfg ctx p) {c : Cmd} (h : Involved E ctx p c) : Formed c := by
  induction h with
  | template h => obtain ⟨s, hs⟩ := hf.text; rw [hs] at h; cases h
  | text _ h => exact .inl (parse_shaped (hf.parser ▸ h))
  | var h => exact .inl (hf.vars _ h)
  | unknown h => exact .inl (hf.unknown _ h)
  | part _ hp ih => exact formed_part hf.parser ih hp

theorem formed_variant {opts : List (Cmd × Rat)} {lo hi : Int} {sep : Str} {m : Option Method}
    (h : Formed (.variant opts lo hi sep m)) :
    opts ≠ [] ∧ 0 ≤ lo ∧ lo ≤ hi ∧ ∀ o ∈ opts, Shaped false o.1 := by
  rcases h with h | h | ⟨s, h⟩
  · cases h with | variant h1 h2 h3 h4 _ => exact ⟨h1, h3, h4, h2⟩
  · cases h with | part h => cases h with | variant h => cases h with | variant h1 h2 h3 h4 _ => exact ⟨h1, h3, h4, h2⟩
  · cases h

theorem formed_named {s : Str} {m : Option Method} {v : List (Str × Cmd)} (h : Formed (.wild (.inl s) m v)) :
    s ≠ [] := by
  rcases h with h | h | ⟨s, h⟩
  · cases h with | named h _ _ => exact h
  · cases h with | part h => cases h
  · cases h

theorem formed_path {c : Cmd} {m : Option Method} {v : List (Str × Cmd)} (h : Formed (.wild (.inr c) m v)) :
    ShapedPath c := by
  rcases h with h | h | ⟨s, h⟩
  · cases h with | path h _ _ _ => exact h
  · cases h with | part h => cases h
  · cases h

theorem shapedPath_truthy {c : Cmd} (h : ShapedPath c) : c.truthy = true := by
  cases h with
  | part h =>
    cases h with
    | lit => rfl
    | variant h =>
      cases h with
      | variant h _ _ _ _ => simpa [Cmd.truthy] using h
    | access => rfl
  | seq h _ =>
    rename_i cs _
    cases cs with
    | nil => simp at h
    | cons => rfl

theorem shapedPath_not_assign {c : Cmd} (h : ShapedPath c) : ∀ n v i o, c ≠ .assign n v i o := by
  rintro n v i o rfl
  cases h with | part h => cases h

theorem shaped_false_not_assign {c : Cmd} (h : Shaped false c) : ∀ n v i o, c ≠ .assign n v i o := by
  rintro n v i o rfl
  cases h

theorem stray_bare {cfg : ParserCfg} (hf : FromText E cfg ctx p) {c : Cmd} (h : Stray E ctx p c) {n : Str} {v : Cmd}
    {i o : Bool} (hc : c = .assign n v i o) : BareAssignment E ctx p := by
  cases h with
  | template h => obtain ⟨s, hs⟩ := hf.text; rw [hs] at h; cases h
  | text h h' => exact .template h (hc ▸ h')
  | var h => exact .var h hc
  | unknown h => exact .unknown (hc ▸ h)
  | part h hp hn =>
    have ho := occurs_formed hf h
    cases hp with
    | token => exact absurd rfl (hn _ _ _)
    | option h' => exact absurd hc (shaped_false_not_assign ((formed_variant ho).2.2.2 _ h') _ _ _ _)
    | path => exact absurd hc (shapedPath_not_assign (formed_path ho) _ _ _ _)
    | pathText h' => exact .name h (hc ▸ h')
    | param h' => exact .param h h' hc
    | value h1 h2 h3 h4 => exact .value h h1 h2 h3 (hc ▸ h4)
    | assigned =>
      rcases ho with ho | ho | ⟨s, ho⟩
      · cases ho with | assign _ h => exact absurd hc (shaped_false_not_assign h _ _ _ _)
      · cases ho with | part h => cases h
      · cases ho
    | default =>
      rcases ho with ho | ho | ⟨s, ho⟩
      · cases ho with | accessD _ h => exact absurd hc (shaped_false_not_assign h _ _ _ _)
      · cases ho with | part h => cases h with | access => cases hc
      · cases ho
    | wrapper =>
      rcases ho with ho | ho | ⟨s, ho⟩
      · cases ho with | wrap h' _ => exact absurd hc (shaped_false_not_assign h' _ _ _ _)
      · cases ho with | part h => cases h
      · cases ho
    | inner =>
      rcases ho with ho | ho | ⟨s, ho⟩
      · cases ho with | wrap _ h' => exact absurd hc (shaped_false_not_assign h' _ _ _ _)
      · cases ho with | part h => cases h
      · cases ho

end Verif
