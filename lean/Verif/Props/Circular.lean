import Verif.Spec.Circular
import Verif.Props.Language
import Verif.Props.Shuffled
/-!
# Wildcards that need each other (C107)
-/

namespace Verif.Props
open Verif Verif.Spec
variable {W : Type}

theorem parsesAll_mem {E : Env W} {vs : List Str} {cs : List Cmd} (h : ParsesAll E vs cs) :
    cs.length = vs.length ∧ ∀ c ∈ cs, ∃ v ∈ vs, E.parse v = .ok c := by
  induction h with
  | nil => simp
  | cons hp _ ih =>
    refine ⟨by simp [ih.1], List.forall_mem_cons.2 ⟨⟨_, List.mem_cons_self .., hp⟩, fun c hc => ?_⟩⟩
    obtain ⟨v, hv, h⟩ := ih.2 c hc
    exact ⟨v, List.mem_cons_of_mem _ hv, h⟩

theorem requires_values {E : Env W} {S : Str → Prop} (hS : Circular E S) {wc : Str} {items : List Item} {cs : List Cmd} (hw : S wc)
    (hv : Values E wc items) (hp : ParsesAll E (iterateWeighted items) cs) (hb : ∀ i ∈ items, i.content ≠ []) :
    cs ≠ [] ∧ ∀ c ∈ cs, Requires E S c := by
  obtain ⟨h1, h2⟩ := hS wc hw items hv
  obtain ⟨h3, h4⟩ := parsesAll_mem hp
  refine ⟨fun e => h1 (List.length_eq_zero_iff.1 (by rw [← h3, e]; rfl)), fun c hc => ?_⟩
  obtain ⟨v, hv, hpv⟩ := h4 c hc
  obtain ⟨i, hi, rfl⟩ := mem_iterateWeighted hv
  rcases h2 i hi with h | ⟨c', hc', hr⟩
  · exact absurd h (hb i hi)
  · rw [hpv] at hc'
    cases hc'
    exact hr

/-- The variant of the values of a wildcard. -/
theorem requires_listed {E : Env W} {S : Str → Prop} (hS : Circular E S) {wc : Str} {items : List Item} {cs : List Cmd} (hw : S wc)
    (hv : Values E wc items) (hp : ParsesAll E (iterateWeighted items) cs)
    (hb : ∀ wc items i, S wc → Values E wc items → i ∈ items → i.content ≠ []) {lo hi : Int} (hlo : 1 ≤ lo) (hhi : 1 ≤ hi) (sep : Str)
    (m : Option Method) :
    Requires E S (Cmd.mkVariant (cs.map (fun c => (c, 1))) (min lo items.length) (min hi items.length) sep m) := by
  obtain ⟨h1, h2⟩ := requires_values hS hw hv hp (fun i hi => hb wc items i hw hv hi)
  have hi0 : 0 < items.length := by
    obtain ⟨h, _⟩ := hS wc hw items hv
    rcases Nat.eq_zero_or_pos items.length with h0 | h0
    · rw [List.length_eq_zero_iff.1 h0] at h; exact absurd rfl h
    · exact h0
  have hc0 : 0 < cs.length := List.length_pos_iff.2 h1
  have hn : 1 ≤ (normBounds (min lo items.length) (min hi items.length)).1 ∧ 1 ≤ (normBounds (min lo items.length) (min hi items.length)).2 := by
    unfold normBounds
    simp only
    omega
  unfold Cmd.mkVariant
  by_cases hs : SingleWild (cs.map fun c => (c, (1 : Rat)))
  · obtain ⟨p, m', v, wt, e⟩ := hs
    obtain ⟨c, rfl⟩ : ∃ c, cs = [c] := List.length_eq_one_iff.1 (by simpa using congrArg List.length e)
    simp only [List.map_cons, List.map_nil, List.cons.injEq, Prod.mk.injEq, and_true] at e
    obtain ⟨rfl, rfl⟩ := e
    have hr := h2 _ (List.mem_singleton.2 rfl)
    cases hr with
    | wild h => exact .values (by omega) (by omega) h hb
  · refine .variant hs ?_ ?_
    · simp only [InBounds, List.length_map]
      omega
    · intro o ho
      obtain ⟨c, hc, rfl⟩ := List.mem_map.1 ho
      exact h2 c hc

mutual
theorem lang_not {E : Env W} {S : Str → Prop} (hS : Circular E S) {vars : List (Str × Cmd)} {c : Cmd} {s : Str} :
    Lang E vars c s → ¬ Requires E S c
  | .lit => fun h => nomatch h
  | .seq ha hl => fun h => by
    have f1 := assigned_not hS ha
    have f2 := langAll_not hS hl
    cases h with
    | seq ht hr => exact f2 _ ((f1 _ ht).1 hr) hr
    | now ht hr => exact (f1 _ ht).2 _ _ rfl hr
  | .seqPad ha hl => fun h => by
    have f1 := assigned_not hS ha
    have f2 := langAll_not hS hl
    cases h with
    | seq ht hr => exact f2 _ ((f1 _ ht).1 hr) hr
    | now ht hr => exact (f1 _ ht).2 _ _ rfl hr
  | .variant (cs := cs) h1 h2 h3 h4 hl => fun h => by
    have f := langAll_not hS hl
    cases h with
    | variant _ hb ho =>
      cases cs with
      | nil => exact hb h4
      | cons c cs =>
        obtain ⟨o, ho', e⟩ := List.mem_map.1 (h3.subset (List.mem_cons_self ..))
        exact f c (List.mem_cons_self ..) (e ▸ ho o ho')
    | values => exact h1 ⟨_, _, _, _, rfl⟩
  | .variantSingle h1 hl => fun h => by
    have f := lang_not hS hl
    cases h with
    | variant _ _ ho => exact f (ho _ (List.mem_singleton.2 rfl))
    | values => exact h1 ⟨_, _, _, _, rfl⟩
  | .variantDry h1 h2 h3 h4 hl hd => fun h => by
    have f := dry_not hS hd
    cases h with
    | variant _ _ ho =>
      obtain ⟨o, ho', e⟩ := List.mem_map.1 (h3.subset (List.mem_append_right _ (List.mem_cons_self ..)))
      exact f (e ▸ ho o ho')
    | values => exact h1 ⟨_, _, _, _, rfl⟩
  | .variantWild hn hv hp hl => fun h => by
    have f := lang_not hS hl
    cases h with
    | variant h1 => exact h1 ⟨_, _, _, _, rfl⟩
    | values h1 h2 h3 h4 => exact f (requires_listed hS (h3 _ _ hn) hv hp h4 h1 h2 _ _)
  | .wild hn hv hi hl => fun h => by
    have f := langPrompt_not hS hl
    cases h with
    | wild h1 =>
      rcases (hS _ (h1 _ _ hn) _ hv).2 _ hi with h0 | ⟨c, hc, hr⟩
      · cases hl with
        | text hne => exact hne h0
      · exact f (.text hc hr)
  | .wildMissing hn hv => fun h => by
    cases h with
    | wild h1 => exact (hS _ (h1 _ _ hn) _ hv).1 rfl
  | .wildMissingCmd hn hv _ => fun h => by
    cases h with
    | wild h1 => exact (hS _ (h1 _ _ hn) _ hv).1 rfl
  | .access _ _ => fun h => nomatch h
  | .wrap hw hi _ _ => fun h => by
    have f1 := lang_not hS hw
    have f2 := lang_not hS hi
    cases h with
    | wrapped _ h => exact f2 h
    | wrapper h _ => exact f1 h
theorem langAll_not {E : Env W} {S : Str → Prop} (hS : Circular E S) {vars : List (Str × Cmd)} {cs : List Cmd} {strs : List Str} :
    LangAll E vars cs strs → ∀ c ∈ cs, ¬ Requires E S c
  | .nil => fun _ h => nomatch h
  | .cons h hs => List.forall_mem_cons.2 ⟨lang_not hS h, langAll_not hS hs⟩
theorem langPrompt_not {E : Env W} {S : Str → Prop} (hS : Circular E S) {vars : List (Str × Cmd)} {p : Prompt} {s : Str} :
    LangPrompt E vars p s → ¬ RequiresPrompt E S p
  | .text _ hp hl => fun h => by
    have f := lang_not hS hl
    cases h with
    | text hp' hr => rw [hp] at hp'; cases hp'; exact f hr
  | .cmd _ hl => fun h => by
    have f := lang_not hS hl
    cases h with
    | cmd hr => exact f hr
theorem assigned_not {E : Env W} {S : Str → Prop} (hS : Circular E S) {vars new : List (Str × Cmd)} {toks toks' : List Cmd} :
    Assigned E vars toks toks' new → ∀ t ∈ toks, (Requires E S t → t ∈ toks') ∧ ∀ n v, t = .assign n v true true → ¬ Requires E S v
  | .nil => fun _ h => nomatch h
  | .tok h hs => by
    have f := assigned_not hS hs
    refine List.forall_mem_cons.2 ⟨⟨fun _ => List.mem_cons_self .., fun n v e => absurd e (h n v _ _)⟩, fun t ht => ?_⟩
    exact ⟨fun hr => List.mem_cons_of_mem _ ((f t ht).1 hr), (f t ht).2⟩
  | .set hv hs => by
    have f := assigned_not hS hs
    have g := assignedValue_not hS hv
    refine List.forall_mem_cons.2 ⟨⟨fun h => (nomatch h), fun n v e => ?_⟩, f⟩
    cases e
    exact g rfl rfl
theorem assignedValue_not {E : Env W} {S : Str → Prop} (hS : Circular E S) {vars : List (Str × Cmd)} {n : Str} {v c : Cmd} {i o : Bool} :
    AssignedValue E vars n v i o c → i = true → o = true → ¬ Requires E S v
  | .keep _ => fun _ h => nomatch h
  | .plain _ => fun h => nomatch h
  | .literal _ => fun _ _ h => nomatch h
  | .immediate _ hl => fun _ _ => lang_not hS hl
theorem dry_not {E : Env W} {S : Str → Prop} (hS : Circular E S) {vars : List (Str × Cmd)} {c : Cmd} :
    Dry E vars c → ¬ Requires E S c
  | .empty => fun h => by
    cases h with
    | variant _ hb _ => exact hb (by simp [InBounds])
  | .single h1 hd => fun h => by
    have f := dry_not hS hd
    cases h with
    | variant _ _ ho => exact f (ho _ (List.mem_singleton.2 rfl))
    | values => exact h1 ⟨_, _, _, _, rfl⟩
  | .wild hn hv hp hd => fun h => by
    have f := dry_not hS hd
    cases h with
    | variant h1 => exact h1 ⟨_, _, _, _, rfl⟩
    | values h1 h2 h3 h4 => exact f (requires_listed hS (h3 _ _ hn) hv hp h4 h1 h2 _ _)
  | .values hn hv he => fun h => by
    cases h with
    | wild h1 => exact (hS _ (h1 _ _ hn) _ hv).1 he
  | .access _ _ => fun h => nomatch h
  | .wrapper hd => fun h => by
    have f := dry_not hS hd
    cases h with
    | wrapped h _ => exact h _ hd
    | wrapper h _ => exact f h
  | .inner hd => fun h => by
    have f := dry_not hS hd
    cases h with
    | wrapped _ h => exact f h
    | wrapper _ h => exact h _ hd
end

/-- **C107.**  If none of some wildcards can do without one of them, a template that needs one of them never gives a prompt: with no
method, no random numbers, and however long it is given. -/
theorem circular_gives_nothing (E : Env W) (S : Str → Prop) (hS : Circular E S) (p : Prompt) (hp : RequiresPrompt E S p) (ctx : Ctx)
    (fuel k : Nat) (w : W) : (samplePrompts E fuel ctx p k w).1 = [] := by
  cases h : (samplePrompts E fuel ctx p k w).1 with
  | nil => rfl
  | cons s l => exact absurd hp (langPrompt_not hS (sampling_sound E fuel ctx p k w s (by rw [h]; exact List.mem_cons_self ..)))

/-- **C107.**  The same for wildcard files, after any history of the manager that leaves the files alone, shuffled or not. -/
theorem circular_files_give_nothing {R S : Type} (c : SysCfg R S) (past : Sys R S) (ops : List (SysOp R S)) (hq : ∀ op ∈ ops, LeavesFiles op) :
    let s := runSys c ops { past with mgr := Mgr.clearCache past.mgr }
    ∀ shelf, OnShelf c.mgr s.mgr.fs s.mgr.sort s.mgr.dedup shelf →
    ∀ N, Circular (withShelf c shelf) N → ∀ p, RequiresPrompt (withShelf c shelf) N p → ∀ (fuel : Nat) (ctx : Ctx) (k : Nat),
      (samplePrompts (system c) fuel ctx p k s).1 = [] := by
  intro s shelf hs N hN p hp fuel ctx k
  cases h : (samplePrompts (system c) fuel ctx p k s).1 with
  | nil => rfl
  | cons t l =>
    exact absurd hp (langPrompt_not hN (shuffled_prompts_from_files c past ops hq shelf hs fuel ctx p k t (by rw [h]; exact List.mem_cons_self ..)))

/-! ### A concrete case -/

/-- `a` is `red __b__`; `b` is `{blue __a__|__a__}` or nothing. -/
def circleEnv : Env Nat :=
  { Demo.env with
    parse := parse (.default fun _ => false)
    getValues := fun s => pure (if s = c!"a" then [⟨c!"red __b__", none⟩]
      else if s = c!"b" then [⟨c!"{blue __a__|__a__}", none⟩, ⟨[], none⟩] else []) }

theorem circle_parse : circleEnv.parse c!"a" = .ok (.lit c!"a" none) ∧ circleEnv.parse c!"b" = .ok (.lit c!"b" none) ∧
    circleEnv.parse c!"red __b__" = .ok (.seq [.lit c!"red " none, .wild (.inl c!"b") none []] [] none) ∧
    circleEnv.parse c!"{blue __a__|__a__}" = .ok (.variant [(.seq [.lit c!"blue " none, .wild (.inl c!"a") none []] [] none, 1),
      (.wild (.inl c!"a") none [], 1)] 1 1 c!"," none) ∧
    circleEnv.parse c!"a __a__ house" =
      .ok (.seq [.lit c!"a " none, .wild (.inl c!"a") none [], .lit c!" house" none] [] none) := by decide +kernel

theorem circle_name {n : Str} (hn : circleEnv.parse n = .ok (.lit n none)) {vars : List (Str × Cmd)} {wc : Str}
    (h : LangPrompt circleEnv vars (.inl n) wc) : wc = n := by
  cases h with
  | text h1 h2 h3 =>
    rw [hn] at h2
    cases h2
    cases h3
    rfl

theorem circle : Circular circleEnv (fun n => n = c!"a" ∨ n = c!"b") := by
  obtain ⟨h1, h2, h3, h4, h5⟩ := circle_parse
  rintro n (rfl | rfl) items ⟨w, w', hv⟩
  · cases hv
    refine ⟨by decide +kernel, fun i hi => .inr ?_⟩
    rw [List.mem_singleton.1 hi]
    exact ⟨_, h3, .seq (List.mem_cons_of_mem _ (List.mem_singleton.2 rfl)) (.wild fun vars wc h => .inr (circle_name h2 h))⟩
  · cases hv
    refine ⟨by decide +kernel, fun i hi => ?_⟩
    rcases List.mem_cons.1 hi with rfl | hi
    · have ha : Requires circleEnv (fun n => n = c!"a" ∨ n = c!"b") (.wild (.inl c!"a") none []) :=
        .wild fun vars wc h => .inl (circle_name h1 h)
      refine .inr ⟨_, h4, .variant ?_ ?_ ?_⟩
      · rintro ⟨p, m, v, wt, e⟩
        cases e
      · simp [InBounds]
      · intro o ho
        simp only [List.mem_cons, List.not_mem_nil, or_false] at ho
        rcases ho with rfl | rfl
        · exact .seq (List.mem_cons_of_mem _ (List.mem_singleton.2 rfl)) ha
        · exact ha
    · rw [List.mem_singleton.1 hi]
      exact .inl rfl

/-- `a __a__ house` gives nothing. -/
example (fuel k w : Nat) (m : Method) : (samplePrompts circleEnv fuel (Demo.ctx m) (.inl c!"a __a__ house") k w).1 = [] := by
  obtain ⟨h1, h2, h3, h4, h5⟩ := circle_parse
  refine circular_gives_nothing circleEnv _ circle _ (.text h5 (.seq (t := .wild (.inl c!"a") none []) (by simp) ?_)) _ fuel k w
  exact .wild fun vars wc h => .inl (circle_name h1 h)

end Verif.Props
