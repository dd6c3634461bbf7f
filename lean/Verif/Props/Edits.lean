import Verif.Proofs.Edits
import Verif.Props.Text
import Verif.Props.Generate
/-!
# C95 Editing the plain text of a template does not disturb its choices
-/

namespace Verif.Props
open Verif Verif.Spec

section
variable {W : Type}

/-- Two sequences that differ only in the texts of their literals, sampled from the same state: they produce equally many
prompts, corresponding prompts have the same text for every other token, and both iterations end in the same way and in the
same world (so everything sampled afterwards is the same as well). -/
theorem editing_text_keeps_choices (E : Env W) (n : Nat) (ctx : Ctx) (toks toks' : List Cmd) (sep : Str)
    (m : Option Method) (h : Edited toks toks') (k : Nat) (w : W) :
    List.Forall₂ (fun t t' => ∃ row row', Filled toks toks' row row' ∧
        t = assembled E (effMethod ctx.method m) sep row ∧ t' = assembled E (effMethod ctx.method m) sep row')
      (samplePrompts E n ctx (.inr (.seq toks sep m)) k w).1 (samplePrompts E n ctx (.inr (.seq toks' sep m)) k w).1 ∧
    EndAlike (samplePrompts E n ctx (.inr (.seq toks sep m)) k w).2
      (samplePrompts E n ctx (.inr (.seq toks' sep m)) k w).2 := by
  have hl := edited_length h
  unfold samplePrompts sampleGen
  simp only [mkGen_seqTwin, Cmd.truthy]
  have htop : TopTwin sep (effMethod ctx.method m) toks toks'
      (.start (ctx.withMethod (effMethod ctx.method m)) (.seq toks sep m))
      (.start (ctx.withMethod (effMethod ctx.method m)) (.seq toks' sep m)) := .start rfl h
  cases h with
  | nil => exact ⟨by cases k <;> cases n <;> exact .nil, by cases k <;> cases n <;> first | exact rfl | exact trivial⟩
  | same h =>
    refine collect_twin k ?_ w
    unfold SquashTwin
    by_cases hw : E.ignoreWs = true
    · simp only [hw, if_true]; exact ⟨_, _, rfl, rfl, htop⟩
    · simp only [hw]; exact htop
  | text h =>
    refine collect_twin k ?_ w
    unfold SquashTwin
    by_cases hw : E.ignoreWs = true
    · simp only [hw, if_true]; exact ⟨_, _, rfl, rfl, htop⟩
    · simp only [hw]; exact htop

/-- The same for templates given as text. -/
theorem editing_template_keeps_choices (E : Env W) (n : Nat) (ctx : Ctx) (s s' : Str) (toks toks' : List Cmd) (sep : Str)
    (m : Option Method) (hs : s ≠ []) (hs' : s' ≠ []) (hp : E.parse s = .ok (.seq toks sep m))
    (hp' : E.parse s' = .ok (.seq toks' sep m)) (ht : toks ≠ []) (h : Edited toks toks') (k : Nat) (w : W) :
    List.Forall₂ (fun t t' => ∃ row row', Filled toks toks' row row' ∧
        t = assembled E (effMethod ctx.method m) sep row ∧ t' = assembled E (effMethod ctx.method m) sep row')
      (samplePrompts E n ctx (.inl s) k w).1 (samplePrompts E n ctx (.inl s') k w).1 ∧
    EndAlike (samplePrompts E n ctx (.inl s) k w).2 (samplePrompts E n ctx (.inl s') k w).2 := by
  have hsame : ∀ (s : Str) (ts : List Cmd), s ≠ [] → E.parse s = .ok (.seq ts sep m) → ts ≠ [] →
      samplePrompts E n ctx (.inl s) k w = samplePrompts E n ctx (.inr (.seq ts sep m)) k w := by
    intro s ts h1 h2 h3
    have e1 : s.isEmpty = false := by simp [h1]
    have e2 : (Cmd.seq ts sep m).truthy = true := by simp [Cmd.truthy, h3]
    simp only [samplePrompts, sampleGen, e1, e2, h2]
    rfl
  have ht' : toks' ≠ [] := by
    intro e
    have := edited_length h
    rw [e] at this
    exact ht (List.length_eq_zero_iff.1 this)
  rw [hsame s toks hs hp ht, hsame s' toks' hs' hp' ht']
  exact editing_text_keeps_choices E n ctx toks toks' sep m h k w

/-! ### One literal replaced -/

theorem filled_self {ts : List Cmd} {row row' : List Str} (h : Filled ts ts row row') : row = row' := by
  generalize hts : ts = ts' at h
  rw [← hts] at h
  have key : ∀ {ts ts' row row'}, Filled ts ts' row row' → ts = ts' → row = row' := by
    intro ts ts' row row' h
    induction h with
    | nil => intro _; rfl
    | same _ _ ih => intro e; rw [ih (List.cons.inj e).2]
    | text _ _ ih =>
      intro e
      have h1 := (List.cons.inj e).1
      simp only [Cmd.lit.injEq, and_true] at h1
      rw [ih (List.cons.inj e).2, h1]
    | assign _ ih => intro e; exact ih (List.cons.inj e).2
    | gap _ _ ih => intro e; exact ih (List.cons.inj e).2
  exact key h rfl

theorem filled_around {pre post : List Cmd} {a b : Str} {row row' : List Str}
    (h : Filled (pre ++ .lit a none :: post) (pre ++ .lit b none :: post) row row') :
    ∃ x y, row = x ++ a :: y ∧ row' = x ++ b :: y := by
  induction pre generalizing row row' with
  | nil =>
    cases h with
    | same hc _ => exact absurd rfl (hc.1 _)
    | text _ h => rw [filled_self h]; exact ⟨[], _, rfl, rfl⟩
    | gap hc _ => rcases hc with hc | hc <;> cases hc
  | cons c pre ih =>
    cases h with
    | same _ h => obtain ⟨x, y, h1, h2⟩ := ih h; exact ⟨_ :: x, y, by rw [h1]; rfl, by rw [h2]; rfl⟩
    | text _ h => obtain ⟨x, y, h1, h2⟩ := ih h; exact ⟨_ :: x, y, by rw [h1]; rfl, by rw [h2]; rfl⟩
    | assign h => exact ih h
    | gap _ h => exact ih h

theorem edited_refl (ts : List Cmd) : Edited ts ts := by
  induction ts with
  | nil => exact .nil
  | cons c ts ih => exact .same ih

theorem edited_around (pre post : List Cmd) (a b : Str) :
    Edited (pre ++ .lit a none :: post) (pre ++ .lit b none :: post) := by
  induction pre with
  | nil => exact .text (edited_refl _)
  | cons c pre ih => exact .same ih

theorem assembled_plain (E : Env W) (hw : E.ignoreWs = false) (m : Method) (row : List Str) :
    assembled E m [] row = row.flatten := by
  unfold assembled
  simp only [hw, joined_empty_separator]
  cases m <;> simp

/-- One literal of a template replaced by another: the prompts are the old ones with the one text in place of the other,
and nothing else changes, whatever else the template contains. -/
theorem replacing_text (E : Env W) (hw : E.ignoreWs = false) (n : Nat) (ctx : Ctx) (pre post : List Cmd) (a b : Str)
    (m : Option Method) (k : Nat) (w : W) :
    ∃ around : List (Str × Str),
      (samplePrompts E n ctx (.inr (.seq (pre ++ .lit a none :: post) [] m)) k w).1 = around.map (fun p => p.1 ++ a ++ p.2) ∧
      (samplePrompts E n ctx (.inr (.seq (pre ++ .lit b none :: post) [] m)) k w).1 = around.map (fun p => p.1 ++ b ++ p.2) := by
  have h := (editing_text_keeps_choices E n ctx _ _ [] m (edited_around pre post a b) k w).1
  generalize (samplePrompts E n ctx (.inr (.seq (pre ++ .lit a none :: post) [] m)) k w).1 = l at h ⊢
  generalize (samplePrompts E n ctx (.inr (.seq (pre ++ .lit b none :: post) [] m)) k w).1 = l' at h ⊢
  induction h with
  | nil => exact ⟨[], rfl, rfl⟩
  | cons h _ ih =>
    obtain ⟨around, h1, h2⟩ := ih
    obtain ⟨row, row', hf, e1, e2⟩ := h
    obtain ⟨x, y, rfl, rfl⟩ := filled_around hf
    rw [assembled_plain E hw] at e1 e2
    refine ⟨(x.flatten, y.flatten) :: around, ?_, ?_⟩
    · rw [e1, h1]; simp
    · rw [e2, h2]; simp

/-- Editing the text changes neither the number of prompts nor the state the random generator is left in. -/
theorem editing_text_keeps_count (E : Env W) (n : Nat) (ctx : Ctx) (toks toks' : List Cmd) (sep : Str)
    (m : Option Method) (h : Edited toks toks') (k : Nat) (w : W) :
    (samplePrompts E n ctx (.inr (.seq toks sep m)) k w).1.length =
      (samplePrompts E n ctx (.inr (.seq toks' sep m)) k w).1.length :=
  (editing_text_keeps_choices E n ctx toks toks' sep m h k w).1.length_eq

end

/-! ### Examples -/

/-- Two wordings of a template. -/
example : Edited
    [.lit c!"A " none, .variant [(.lit c!"red" none, 1), (.lit c!"green" none, 1)] 1 1 c!"," none, .lit c!" ball" none]
    [.lit c!"The " none, .variant [(.lit c!"red" none, 1), (.lit c!"green" none, 1)] 1 1 c!"," none, .lit c!" box" none] :=
  .text (.same (.text .nil))

example : genEnv.parse c!"A {red|green} ball" = .ok (.seq [.lit c!"A " none,
    .variant [(.lit c!"red" none, 1), (.lit c!"green" none, 1)] 1 1 c!"," none, .lit c!" ball" none] [] none) := by
  decide +kernel

example : genEnv.parse c!"The {red|green} box" = .ok (.seq [.lit c!"The " none,
    .variant [(.lit c!"red" none, 1), (.lit c!"green" none, 1)] 1 1 c!"," none, .lit c!" box" none] [] none) := by
  decide +kernel

/-- They choose the same colours. -/
example : (samplePrompts genEnv 40 (Demo.ctx .cyc) (.inl c!"A {red|green} ball") 3 3).1 =
      [c!"A red ball", c!"A green ball", c!"A red ball"] ∧
    (samplePrompts genEnv 40 (Demo.ctx .cyc) (.inl c!"The {red|green} box") 3 3).1 =
      [c!"The red box", c!"The green box", c!"The red box"] := by decide +kernel

/-- Also with the random sampler, from every random state. -/
example (k w : Nat) : List.Forall₂ (fun t t' => ∃ colour, t = c!"A " ++ colour ++ c!" ball" ∧ t' = c!"The " ++ colour ++ c!" box")
    (samplePrompts genEnv 40 (Demo.ctx .random) (.inl c!"A {red|green} ball") k w).1
    (samplePrompts genEnv 40 (Demo.ctx .random) (.inl c!"The {red|green} box") k w).1 := by
  refine (editing_template_keeps_choices genEnv 40 (Demo.ctx .random) _ _ [.lit c!"A " none,
    .variant [(.lit c!"red" none, 1), (.lit c!"green" none, 1)] 1 1 c!"," none, .lit c!" ball" none] [.lit c!"The " none,
    .variant [(.lit c!"red" none, 1), (.lit c!"green" none, 1)] 1 1 c!"," none, .lit c!" box" none] [] none (by decide)
    (by decide) (by decide +kernel) (by decide +kernel) (by simp) (.text (.same (.text .nil))) k w).1.imp ?_
  rintro t t' ⟨row, row', h, rfl, rfl⟩
  rw [assembled_plain genEnv rfl, assembled_plain genEnv rfl]
  cases h with
  | text _ h =>
    cases h with
    | gap hc _ => rcases hc with hc | hc <;> cases hc
    | @same _ x _ _ _ _ _ h =>
      cases h with
      | text _ h => cases h; exact ⟨x, by simp, by simp⟩

end Verif.Props
