import Verif.Proofs.Renaming
import Verif.Props.Parser
import Verif.Props.Generate
/-!
# C97 Renaming variables
-/

namespace Verif.Props
open Verif Verif.Spec
variable {W : Type} {E : Env W} {ρ : Str → Str}

/-- **C97.**  A template with its variables renamed gives the same prompts, ends in the same way and leaves everything in the
same state. -/
theorem renaming_variables {ctx : Ctx} {p p' : Prompt} (hE : Renames E ρ ctx) (h : RenamedPrompt E ρ p p') (n k : Nat)
    (w : W) :
    (samplePrompts E n (ctx.rename ρ) p' k w).1 = (samplePrompts E n ctx p k w).1 ∧
      SameEndRenamed ρ (samplePrompts E n ctx p k w).2 (samplePrompts E n (ctx.rename ρ) p' k w).2 := by
  have key : ∀ {x y : Except Err Gen}, LiftMirror ρ (RN E ρ) x y →
      ((match y with | .error e => ([], Stop.raised e w) | .ok g => collect E n k g w).1 : List Str) =
        ((match x with | .error e => ([], Stop.raised e w) | .ok g => collect E n k g w).1 : List Str) ∧
      SameEndRenamed ρ (match x with | .error e => ([], Stop.raised e w) | .ok g => collect E n k g w : List Str × Stop W).2
        (match y with | .error e => ([], Stop.raised e w) | .ok g => collect E n k g w : List Str × Stop W).2 := by
    intro x y h
    rcases h.cases with ⟨e, rfl, rfl⟩ | ⟨g, g', rfl, rfl, h⟩
    · exact ⟨rfl, rfl, rfl⟩
    · exact collect_RN hE.different hE.unknown hE.parser hE.manager n k h w
  refine key ?_
  cases h with
  | @cmd c hc => exact sampleGen_RN hE.different hE.unknown hE.parser (p := .inr c) hE.vars hc
  | @text t t' c ht ht' h1 h2 hc =>
    have e1 : t.isEmpty = false := by cases t <;> simp_all
    have e2 : t'.isEmpty = false := by cases t' <;> simp_all
    simp only [sampleGen, h1, h2, e1, e2, Bool.false_eq_true, if_false]
    rcases (mkGen_RN hE.different hE.unknown hE.vars hc).cases with ⟨e, h3, h4⟩ | ⟨g, g', h3, h4, h5⟩
    · rw [h3, h4]; exact rfl
    · rw [h3, h4]
      cases E.ignoreWs
      · exact h5
      · exact .squash h5

mutual
/-- A command in which no renamed variable is mentioned stays as it is. -/
theorem rename_unmentioned : ∀ c : Cmd, (∀ n ∈ variablesOf c, ρ n = n) → c.rename ρ = c
  | .lit .., _ => rfl
  | .seq toks _ _, h => by rw [Cmd.rename, renameL_unmentioned toks h]
  | .variant opts _ _ _ _, h => by rw [Cmd.rename, renameO_unmentioned opts h]
  | .wild (.inl _) _ v, h => by rw [Cmd.rename, renameV_unmentioned v h]
  | .wild (.inr p) _ v, h => by
      rw [Cmd.rename, renameV_unmentioned v fun n hn => h n (List.mem_append_right _ hn),
        rename_unmentioned p fun n hn => h n (List.mem_append_left _ hn)]
  | .assign n v _ _, h => by
      rw [Cmd.rename, h n (List.mem_cons_self ..), rename_unmentioned v fun n hn => h n (List.mem_cons_of_mem _ hn)]
  | .access n none, h => by rw [Cmd.rename, h n (List.mem_cons_self ..)]
  | .access n (some d), h => by
      rw [Cmd.rename, h n (List.mem_cons_self ..), rename_unmentioned d fun n hn => h n (List.mem_cons_of_mem _ hn)]
  | .wrap w i _, h => by
      rw [Cmd.rename, rename_unmentioned w fun n hn => h n (List.mem_append_left _ hn),
        rename_unmentioned i fun n hn => h n (List.mem_append_right _ hn)]
theorem renameL_unmentioned : ∀ l : List Cmd, (∀ n ∈ variablesOfAll l, ρ n = n) → Cmd.renameL ρ l = l
  | [], _ => rfl
  | c :: cs, h => by
      rw [Cmd.renameL, rename_unmentioned c fun n hn => h n (List.mem_append_left _ hn),
        renameL_unmentioned cs fun n hn => h n (List.mem_append_right _ hn)]
theorem renameO_unmentioned : ∀ l : List (Cmd × Rat), (∀ n ∈ variablesOfOptions l, ρ n = n) → Cmd.renameO ρ l = l
  | [], _ => rfl
  | (c, _) :: cs, h => by
      rw [Cmd.renameO, rename_unmentioned c fun n hn => h n (List.mem_append_left _ hn),
        renameO_unmentioned cs fun n hn => h n (List.mem_append_right _ hn)]
theorem renameV_unmentioned : ∀ l : List (Str × Cmd), (∀ n ∈ variablesOfParams l, ρ n = n) → Cmd.renameV ρ l = l
  | [], _ => rfl
  | (n, c) :: cs, h => by
      rw [Cmd.renameV, h n (List.mem_append_left _ (List.mem_cons_self ..)),
        rename_unmentioned c fun n hn => h n (List.mem_append_left _ (List.mem_cons_of_mem _ hn)),
        renameV_unmentioned cs fun n hn => h n (List.mem_append_right _ hn)]
end

/-- Texts that come from outside are left alone if none of the parts reads one that mentions a renamed variable. -/
theorem texts_keep_parts {c : Cmd} (h1 : ∀ d, ReadFromText E c d → d.rename ρ = d)
    (h2 : ∀ d, Part E c d → TextsKeep E ρ d) : TextsKeep E ρ c := by
  intro x d hx hd
  rcases Relation.ReflTransGen.cases_head hx with rfl | ⟨y, hy, hyx⟩
  · exact h1 d hd
  · exact h2 y hy x d hyx hd

theorem together_rename (l : List Cmd) : (together l).rename ρ = together (Cmd.renameL ρ l) := by
  match l with
  | [] => rfl
  | [c] => rfl
  | a :: b :: l => rfl

theorem joinText_rename (t : Str) (l : List Cmd) : Cmd.renameL ρ (joinText t l) = joinText t (Cmd.renameL ρ l) := by
  cases l with
  | nil => rfl
  | cons c l =>
    rcases c with ⟨_, _ | _⟩ | _ | _ | ⟨_ | _, _, _⟩ | _ | ⟨_, _ | _⟩ | _ <;> rfl

theorem variantOf_rename (m : Option Method) (b : Option (Bound × Option Str)) (opts : List (Cmd × Rat)) :
    (variantOf m b opts).rename ρ = variantOf m b (Cmd.renameO ρ opts) := by
  have : (Cmd.renameO ρ opts).length = opts.length := by simp [renameO_map]
  cases b with
  | none => rfl
  | some b => obtain ⟨b, sep⟩ := b; simp only [variantOf, Cmd.rename, this]

theorem pathOf_rename (c : Cmd) (h : c.rename ρ = c) (m : Option Method) (v : List (Str × Cmd)) :
    Cmd.rename ρ (.wild (pathOf c) m v) = .wild (pathOf c) m (Cmd.renameV ρ v) := by
  cases c <;> first | rfl | (simp only [pathOf]; show Cmd.wild (.inr (Cmd.rename ρ _)) _ _ = _; rw [h])

mutual
theorem piece_rename : ∀ p : Piece, p.pathsKept ρ → (p.rename ρ).meaning = p.meaning.rename ρ
  | .text _, _ => rfl
  | .note _, _ => rfl
  | .choice w m b o more, h => by
      simp only [Piece.pathsKept] at h
      simp only [Piece.rename, Piece.meaning, variantOf_rename, Cmd.renameO, opt_rename o h.1, opts_rename more h.2]
  | .wild m path ps, h => by
      simp only [Piece.pathsKept] at h
      have e : (together (pathMeaning path)).rename ρ = together (pathMeaning path) := by
        rw [together_rename, renameL_unmentioned _ h.1]
      simp only [Piece.rename, Piece.meaning, params_rename ps h.2]
      rw [pathOf_rename _ e]
  | .get _ _ _, _ => rfl
  | .getD _ _ _ _ d, h => by
      simp only [Piece.pathsKept] at h
      simp only [Piece.rename, Piece.meaning, Cmd.rename, together_rename, pieces_rename d h]
  | .set _ _ _ _ _ _ v, h => by
      simp only [Piece.pathsKept] at h
      simp only [Piece.rename, Piece.meaning, Cmd.rename, together_rename, pieces_rename v h]
  | .wrap _ a _ b, h => by
      simp only [Piece.pathsKept] at h
      simp only [Piece.rename, Piece.meaning, Cmd.rename, together_rename, pieces_rename a h.1, pieces_rename b h.2]
theorem pieces_rename : ∀ ps : List Piece, piecesPathsKept ρ ps → meanings (piecesRename ρ ps) = Cmd.renameL ρ (meanings ps)
  | [], _ => rfl
  | p :: ps, h => by
      simp only [piecesPathsKept] at h
      have h1 := piece_rename p h.1
      have h2 := pieces_rename ps h.2
      cases p with
      | note s => simp only [piecesRename, Piece.rename, meanings, h2]
      | text t => simp only [piecesRename, Piece.rename, meanings, h2, joinText_rename]
      | _ => simp only [piecesRename, Piece.rename, meanings, h2, Cmd.renameL] at h1 ⊢; rw [h1]
theorem opt_rename : ∀ o : Opt, o.pathsKept ρ → (o.rename ρ).meaning = (o.meaning.1.rename ρ, o.meaning.2)
  | .mk _ _ v, h => by
      simp only [Opt.pathsKept] at h
      simp only [Opt.rename, Opt.meaning, together_rename, pieces_rename v h]
theorem opts_rename : ∀ os : List Opt, optsPathsKept ρ os → optsMeaning (optsRename ρ os) = Cmd.renameO ρ (optsMeaning os)
  | [], _ => rfl
  | o :: os, h => by
      simp only [optsPathsKept] at h
      simp only [optsRename, optsMeaning, Cmd.renameO, opt_rename o h.1, opts_rename os h.2]
theorem params_rename : ∀ ps : List Param, paramsPathsKept ρ ps →
    paramsMeaning (paramsRename ρ ps) = Cmd.renameV ρ (paramsMeaning ps)
  | [], _ => rfl
  | .mk n v :: ps, h => by
      simp only [paramsPathsKept] at h
      simp only [paramsRename, paramsMeaning, Cmd.renameV, together_rename, pieces_rename v h.1, params_rename ps h.2]
end

/-- What a template with renamed variables stands for. -/
theorem meaning_rename {ps : List Piece} (h : piecesPathsKept ρ ps) :
    meaning (piecesRename ρ ps) = (meaning ps).rename ρ := by
  unfold meaning
  rw [pieces_rename ps h, ← together_rename]

/-- **C97.**  The same for templates as they are written: the template in which every variable has been renamed where it is
assigned, used or given to a wildcard. -/
theorem renaming_in_templates {ctx : Ctx} (al : Char → Bool) (hal : E.parse = parse (.default al)) (hE : Renames E ρ ctx)
    {ps : List Piece} (h1 : Spec.ok .top ps = true) (h2 : Spec.ok .top (piecesRename ρ ps) = true)
    (ht1 : '\t' ∉ source ps) (ht2 : '\t' ∉ source (piecesRename ρ ps)) (he1 : source ps ≠ [])
    (he2 : source (piecesRename ρ ps) ≠ []) (hk : piecesPathsKept ρ ps) (hc : TextsKeep E ρ (meaning ps)) (n k : Nat) (w : W) :
    (samplePrompts E n (ctx.rename ρ) (.inl (source (piecesRename ρ ps))) k w).1 =
        (samplePrompts E n ctx (.inl (source ps)) k w).1 ∧
      SameEndRenamed ρ (samplePrompts E n ctx (.inl (source ps)) k w).2
        (samplePrompts E n (ctx.rename ρ) (.inl (source (piecesRename ρ ps))) k w).2 :=
  renaming_variables hE (.text he1 he2 (by rw [hal]; exact parse_source al ps h1 ht1)
    (by rw [hal, parse_source al _ h2 ht2, meaning_rename hk]) hc) n k w

/-! ### An example -/

/-- `x` becomes `animal`. -/
def xAnimal (n : Str) : Str := if n = c!"x" then c!"animal" else if n = c!"animal" then c!"x" else n

theorem xAnimal_twice (n : Str) : xAnimal (xAnimal n) = n := by
  unfold xAnimal
  by_cases h1 : n = c!"x"
  · subst h1; decide
  · by_cases h2 : n = c!"animal"
    · subst h2; decide
    · simp only [if_neg h1, if_neg h2]

/-- `${x=!{cat|dog}}a __colors(z=${x})__ ${x} and ${y:more}` -/
def petTemplate : List Piece :=
  [.set [] c!"x" [] false true [] [.choice [] none none (.mk [] none [.text c!"cat"]) [.mk [] none [.text c!"dog"]]],
   .text c!"a ", .wild none [.text c!"colors"] [.mk c!"z" [.get [] c!"x" []]], .text c!" ", .get [] c!"x" [],
   .text c!" and ", .getD [] c!"y" [] [] [.text c!"more"]]

example : source petTemplate = c!"${x=!{cat|dog}}a __colors(z=${x})__ ${x} and ${y:more}" ∧
    source (piecesRename xAnimal petTemplate) =
      c!"${animal=!{cat|dog}}a __colors(z=${animal})__ ${animal} and ${y:more}" := by decide +kernel

/-- Both are unambiguous, no wildcard name mentions `x`, and the renaming meets what is asked of it. -/
example : Spec.ok .top petTemplate = true ∧ Spec.ok .top (piecesRename xAnimal petTemplate) = true ∧
    '\t' ∉ source petTemplate ∧ '\t' ∉ source (piecesRename xAnimal petTemplate) ∧ source petTemplate ≠ [] ∧
    source (piecesRename xAnimal petTemplate) ≠ [] := by decide +kernel

example : piecesPathsKept xAnimal petTemplate := by
  simp [petTemplate, piecesPathsKept, Piece.pathsKept, Opt.pathsKept, optsPathsKept, paramsPathsKept, pathMeaning,
    Piece.meaning, variablesOfAll, variablesOf]

theorem xAnimal_renames (m : Method) : Renames genEnv xAnimal (Demo.ctx m) where
  different := fun a b h => by rw [← xAnimal_twice a, h, xAnimal_twice]
  unknown u h := by cases h
  vars b h := by cases h
  parser s e h := by
    rcases (parsing_ends (.default fun _ => false) ⟨by decide, by decide, by decide, by decide⟩ s).2 with ⟨c, h'⟩ | h' | h' <;>
      rw [show genEnv.parse = parse (.default fun _ => false) from rfl, h'] at h <;> cases h <;> rfl
  manager wc w e w' h := by cases h

theorem pet_texts : TextsKeep genEnv xAnimal (meaning petTemplate) := by
  have access : ∀ n, TextsKeep genEnv xAnimal (.access n none) := fun n =>
    texts_keep_parts (fun d h => by cases h) (fun d h => by cases h)
  have e : meaning petTemplate = .seq
      [.assign c!"x" (.variant [(.lit c!"cat" none, 1), (.lit c!"dog" none, 1)] 1 1 c!"," none) true true,
       .lit c!"a " none, .wild (.inl c!"colors") none [(c!"z", .access c!"x" none)], .lit c!" " none, .access c!"x" none,
       .lit c!" and " none, .access c!"y" (some (.lit c!"more" none))] [] none := by
    decide +kernel
  have named : genEnv.parse c!"colors" = .ok (.lit c!"colors" none) := by decide +kernel
  have red : genEnv.parse c!"red" = .ok (.lit c!"red" none) := by decide +kernel
  have blue : genEnv.parse c!"blue" = .ok (.lit c!"blue" none) := by decide +kernel
  have values : ∀ wc items i d, Values genEnv wc items → i ∈ items → genEnv.parse i.content = .ok d →
      ∃ t, d = .lit t none := by
    rintro wc items i d ⟨w, w', h⟩ hi hd
    by_cases hc : wc = c!"colors"
    · subst hc
      cases h
      simp only [if_true, List.mem_cons, List.not_mem_nil, or_false] at hi
      rcases hi with rfl | rfl
      · rw [red] at hd; cases hd; exact ⟨_, rfl⟩
      · rw [blue] at hd; cases hd; exact ⟨_, rfl⟩
    · have : items = [] := by
        have h' : (Res.ok (if wc = c!"colors" then [(⟨c!"red", none⟩ : Item), ⟨c!"blue", none⟩] else []) w : Res Nat _) =
          .ok items w' := h
        rw [if_neg hc] at h'; cases h'; rfl
      subst this; cases hi
  rw [e]
  refine texts_keep_parts (fun d h => by cases h) fun d h => ?_
  cases h with
  | token h =>
    simp only [List.mem_cons, List.not_mem_nil, or_false] at h
    rcases h with rfl | rfl | rfl | rfl | rfl | rfl | rfl
    · refine texts_keep_parts (fun d h => by cases h) fun d h => ?_
      cases h with
      | assigned =>
        refine texts_keep_parts (fun d h => by cases h) fun d h => ?_
        cases h with
        | option h =>
          simp only [List.mem_cons, List.not_mem_nil, or_false] at h
          rcases h with rfl | rfl <;> exact texts_lit
    · exact texts_lit
    · refine texts_keep_parts (fun d h => ?_) fun d h => ?_
      · cases h with
        | name h => rw [named] at h; cases h; rfl
        | value h1 h2 h3 h4 => obtain ⟨t, rfl⟩ := values _ _ _ _ h2 h3 h4; rfl
      · cases h with
        | pathText h => rw [named] at h; cases h; exact texts_lit
        | param h =>
          simp only [List.mem_cons, List.not_mem_nil, or_false] at h
          subst h; exact access _
        | value h1 h2 h3 h4 => obtain ⟨t, rfl⟩ := values _ _ _ _ h2 h3 h4; exact texts_lit
    · exact texts_lit
    · exact access _
    · exact texts_lit
    · refine texts_keep_parts (fun d h => by cases h) fun d h => ?_
      cases h; exact texts_lit

example (m : Method) (n k w : Nat) :
    (samplePrompts genEnv n (Demo.ctx m) (.inl c!"${animal=!{cat|dog}}a __colors(z=${animal})__ ${animal} and ${y:more}") k w).1 =
      (samplePrompts genEnv n (Demo.ctx m) (.inl c!"${x=!{cat|dog}}a __colors(z=${x})__ ${x} and ${y:more}") k w).1 := by
  have := (renaming_variables (xAnimal_renames m) (.text (t := source petTemplate)
    (t' := source (piecesRename xAnimal petTemplate)) (by decide +kernel) (by decide +kernel)
    (show genEnv.parse _ = .ok (meaning petTemplate) by decide +kernel) (by decide +kernel) pet_texts) n k w).1
  exact this

example : (samplePrompts genEnv 40 (Demo.ctx .cyc) (.inl c!"${x=!{cat|dog}}a __colors(z=${x})__ ${x} and ${y:more}") 3 0).1 =
    [c!"a red cat and more", c!"a blue cat and more", c!"a red cat and more"] := by decide +kernel

/-- A variable that is used but has no value: the exception names the renamed variable. -/
example : Demo.errOf (samplePrompts genEnv 40 (Demo.ctx .cyc) (.inl c!"a ${x}") 3 0).2 = some (.key c!"x") ∧
    Demo.errOf (samplePrompts genEnv 40 (Demo.ctx .cyc) (.inl c!"a ${animal}") 3 0).2 = some (.key c!"animal") := by
  decide +kernel

end Verif.Props
