import Verif.Proofs.Relabel
import Verif.Props.Parser
import Verif.Props.Generate
import Verif.Props.Footprint
import Verif.Props.System
/-!
# C111 Renaming wildcards
-/

namespace Verif.Props
open Verif Verif.Spec
variable {W : Type} {E E' : Env W} {ν τ : Str → Str}

theorem sameEnding_id {a b : Stop W} (h : SameEndRenamed id a b) : SameEnding a b := by
  cases a <;> cases b <;> try exact h
  exact ⟨by rw [h.1, err_relabel], h.2⟩

/-- **C111.**  If wildcards are renamed in the collection, in the template, in the variables and in the values of wildcards,
sampling gives the same prompts, ends in the same way and leaves everything in the same state, whatever the method. -/
theorem renaming_wildcards {ctx : Ctx} {p p' : Prompt} (hS : Relabels E E' ν τ) (hctx : ∀ b ∈ ctx.vars, AllMoved E E' ν τ b.2)
    (h : RelabelledPrompt E E' ν τ p p') (n k : Nat) (w : W) :
    (samplePrompts E' n (ctx.relabel ν) p' k w).1 = (samplePrompts E n ctx p k w).1 ∧
      SameEnding (samplePrompts E n ctx p k w).2 (samplePrompts E' n (ctx.relabel ν) p' k w).2 := by
  have key : ∀ {x y : Except Err Gen}, LiftMirror id (RW E E' ν τ) x y →
      ((match y with | .error e => ([], Stop.raised e w) | .ok g => collect E' n k g w).1 : List Str) =
        ((match x with | .error e => ([], Stop.raised e w) | .ok g => collect E n k g w).1 : List Str) ∧
      SameEnding (match x with | .error e => ([], Stop.raised e w) | .ok g => collect E n k g w : List Str × Stop W).2
        (match y with | .error e => ([], Stop.raised e w) | .ok g => collect E' n k g w : List Str × Stop W).2 := by
    intro x y h
    rcases h.cases with ⟨e, rfl, rfl⟩ | ⟨g, g', rfl, rfl, h⟩
    · exact ⟨rfl, (err_relabel e).symm, rfl⟩
    · have := collect_RW hS n k h w
      exact ⟨this.1, sameEnding_id this.2⟩
  refine key ?_
  cases h with
  | @cmd c hc => exact sampleGen_RW hS hctx (.cmd hc)
  | @text t t' c ht ht' h1 h2 hc =>
    refine sampleGen_RW hS hctx (.text ⟨⟨by simp [ht, ht'], ?_, ?_⟩, ?_⟩)
    · intro d hd; rw [h1] at hd; cases hd; exact h2
    · intro e he; rw [h1] at he; cases he
    · intro d hd; rw [h1] at hd; cases hd; exact hc

/-! ### Templates as they are written -/

theorem together_relabel (l : List Cmd) : (together l).relabel ν = together (Cmd.relabelL ν l) := by
  match l with
  | [] => rfl
  | [c] => rfl
  | a :: b :: l => rfl

theorem joinText_relabel (t : Str) (l : List Cmd) : Cmd.relabelL ν (joinText t l) = joinText t (Cmd.relabelL ν l) := by
  cases l with
  | nil => rfl
  | cons c l =>
    rcases c with ⟨_, _ | _⟩ | _ | _ | ⟨_ | _, _, _⟩ | _ | ⟨_, _ | _⟩ | _ <;> rfl

theorem variantOf_relabel (m : Option Method) (b : Option (Bound × Option Str)) (opts : List (Cmd × Rat)) :
    (variantOf m b opts).relabel ν = variantOf m b (Cmd.relabelO ν opts) := by
  have : (Cmd.relabelO ν opts).length = opts.length := by simp [relabelO_map]
  cases b with
  | none => rfl
  | some b => obtain ⟨b, sep⟩ := b; simp only [variantOf, Cmd.relabel, this]

theorem path_relabel {path : List Piece} (h : PathStays ν path) (m : Option Method) (v : List (Str × Cmd)) :
    Cmd.relabel ν (.wild (pathOf (together (pathMeaning path))) m v) =
      .wild (pathOf (together (pathMeaning (pathRelabel ν path)))) m (Cmd.relabelV ν v) := by
  rcases h with ⟨t, rfl⟩ | ⟨c, h1, h2⟩
  · rfl
  · have e : pathRelabel ν path = path := by
      unfold pathRelabel
      split
      · cases h1
      · rfl
    rw [e, h1, Cmd.relabel, h2]

mutual
theorem piece_relabel : ∀ p : Piece, p.pathsStay ν → (p.relabel ν).meaning = p.meaning.relabel ν
  | .text _, _ => rfl
  | .note _, _ => rfl
  | .choice w m b o more, h => by
      simp only [Piece.pathsStay] at h
      simp only [Piece.relabel, Piece.meaning, variantOf_relabel, Cmd.relabelO, opt_relabel o h.1, opts_relabel more h.2]
  | .wild m path ps, h => by
      simp only [Piece.pathsStay] at h
      simp only [Piece.relabel, Piece.meaning, params_relabel ps h.2]
      rw [path_relabel h.1]
  | .get _ _ _, _ => rfl
  | .getD _ _ _ _ d, h => by
      simp only [Piece.pathsStay] at h
      simp only [Piece.relabel, Piece.meaning, Cmd.relabel, together_relabel, pieces_relabel d h]
  | .set _ _ _ _ _ _ v, h => by
      simp only [Piece.pathsStay] at h
      simp only [Piece.relabel, Piece.meaning, Cmd.relabel, together_relabel, pieces_relabel v h]
  | .wrap _ a _ b, h => by
      simp only [Piece.pathsStay] at h
      simp only [Piece.relabel, Piece.meaning, Cmd.relabel, together_relabel, pieces_relabel a h.1, pieces_relabel b h.2]
theorem pieces_relabel : ∀ ps : List Piece, piecesPathsStay ν ps → meanings (piecesRelabel ν ps) = Cmd.relabelL ν (meanings ps)
  | [], _ => rfl
  | p :: ps, h => by
      simp only [piecesPathsStay] at h
      have h1 := piece_relabel p h.1
      have h2 := pieces_relabel ps h.2
      cases p with
      | note s => simp only [piecesRelabel, Piece.relabel, meanings, h2]
      | text t => simp only [piecesRelabel, Piece.relabel, meanings, h2, joinText_relabel]
      | get => simp only [piecesRelabel, Piece.relabel, meanings, h2, Cmd.relabelL]; rfl
      | _ => simp only [piecesRelabel, Piece.relabel, meanings, h2, Cmd.relabelL] at h1 ⊢; rw [h1]
theorem opt_relabel : ∀ o : Opt, o.pathsStay ν → (o.relabel ν).meaning = (o.meaning.1.relabel ν, o.meaning.2)
  | .mk _ _ v, h => by
      simp only [Opt.pathsStay] at h
      simp only [Opt.relabel, Opt.meaning, together_relabel, pieces_relabel v h]
theorem opts_relabel : ∀ os : List Opt, optsPathsStay ν os → optsMeaning (optsRelabel ν os) = Cmd.relabelO ν (optsMeaning os)
  | [], _ => rfl
  | o :: os, h => by
      simp only [optsPathsStay] at h
      simp only [optsRelabel, optsMeaning, Cmd.relabelO, opt_relabel o h.1, opts_relabel os h.2]
theorem params_relabel : ∀ ps : List Param, paramsPathsStay ν ps →
    paramsMeaning (paramsRelabel ν ps) = Cmd.relabelV ν (paramsMeaning ps)
  | [], _ => rfl
  | .mk n v :: ps, h => by
      simp only [paramsPathsStay] at h
      simp only [paramsRelabel, paramsMeaning, Cmd.relabelV, together_relabel, pieces_relabel v h.1, params_relabel ps h.2]
end

/-- What a template with renamed wildcards stands for. -/
theorem meaning_relabel {ps : List Piece} (h : piecesPathsStay ν ps) :
    meaning (piecesRelabel ν ps) = (meaning ps).relabel ν := by
  unfold meaning
  rw [pieces_relabel ps h, ← together_relabel]

/-- **C111.**  The same for templates as they are written. -/
theorem renaming_wildcards_in_templates {ctx : Ctx} (al : Char → Bool) (hal : E.parse = parse (.default al))
    (hal' : E'.parse = parse (.default al)) (hS : Relabels E E' ν τ) (hctx : ∀ b ∈ ctx.vars, AllMoved E E' ν τ b.2)
    {ps : List Piece} (h1 : Spec.ok .top ps = true) (h2 : Spec.ok .top (piecesRelabel ν ps) = true)
    (ht1 : '\t' ∉ source ps) (ht2 : '\t' ∉ source (piecesRelabel ν ps)) (he1 : source ps ≠ [])
    (he2 : source (piecesRelabel ν ps) ≠ []) (hk : piecesPathsStay ν ps) (hc : AllMoved E E' ν τ (meaning ps)) (n k : Nat) (w : W) :
    (samplePrompts E' n (ctx.relabel ν) (.inl (source (piecesRelabel ν ps))) k w).1 =
        (samplePrompts E n ctx (.inl (source ps)) k w).1 ∧
      SameEnding (samplePrompts E n ctx (.inl (source ps)) k w).2
        (samplePrompts E' n (ctx.relabel ν) (.inl (source (piecesRelabel ν ps))) k w).2 :=
  renaming_wildcards hS hctx (.text he1 he2 (by rw [hal]; exact parse_source al ps h1 ht1)
    (by rw [hal', parse_source al _ h2 ht2, meaning_relabel hk]) hc) n k w

/-! ### Files -/

theorem endsAlikeIn_of {R S : Type} {P Q : Sys R S → S → Prop} {a b : Stop (Sys R S)} {x y : Stop S}
    (h1 : SameStop (fun s r => s.rand = r ∧ P s r) a x) (h2 : SameEnding x y)
    (h3 : SameStop (fun s r => s.rand = r ∧ Q s r) b y) : EndsAlikeIn (fun a b => a.rand = b.rand) a b := by
  cases a with
  | limit g w =>
    cases x <;> try exact h1.elim
    cases y <;> try exact h2.elim
    cases b <;> try exact h3.elim
    exact h1.2.1.trans (Eq.trans h2 h3.2.1.symm)
  | stop w =>
    cases x <;> try exact h1.elim
    cases y <;> try exact h2.elim
    cases b <;> try exact h3.elim
    exact h1.1.trans (Eq.trans h2 h3.1.symm)
  | raised e w =>
    cases x <;> try exact h1.elim
    cases y <;> try exact h2.elim
    cases b <;> try exact h3.elim
    exact ⟨h1.1.trans (h2.1.trans h3.1.symm), h1.2.1.trans (h2.2.trans h3.2.1.symm)⟩
  | fuel =>
    cases x <;> try exact h1.elim
    cases y <;> try exact h2.elim
    cases b <;> try exact h3.elim
    trivial

/-- **C111.**  The same for wildcards in files: if the values found in the files of the second manager are those of the first
under the new names, both give the same prompts and end in the same way, whatever was sampled or looked up before. -/
theorem renaming_wildcards_in_files {R S : Type} (c c' : SysCfg R S) (past past' : Sys R S) (ops ops' : List (SysOp R S))
    (hoff : past.mgr.shuffle = false) (hoff' : past'.mgr.shuffle = false) (hq : ∀ op ∈ ops, Quiet op) (hq' : ∀ op ∈ ops', Quiet op) :
    let s := runSys c ops { past with mgr := Mgr.clearCache past.mgr }
    let s' := runSys c' ops' { past' with mgr := Mgr.clearCache past'.mgr }
    s'.rand = s.rand →
    ∀ shelf shelf', OnShelf c.mgr s.mgr.fs s.mgr.sort s.mgr.dedup shelf →
      OnShelf c'.mgr s'.mgr.fs s'.mgr.sort s'.mgr.dedup shelf' →
    ∀ (ν τ : Str → Str), Relabels (withShelf c shelf) (withShelf c' shelf') ν τ →
    ∀ (ctx : Ctx) (p p' : Prompt), (∀ b ∈ ctx.vars, AllMoved (withShelf c shelf) (withShelf c' shelf') ν τ b.2) →
      RelabelledPrompt (withShelf c shelf) (withShelf c' shelf') ν τ p p' →
    ∀ fuel k : Nat,
      (samplePrompts (system c') fuel (ctx.relabel ν) p' k s').1 = (samplePrompts (system c) fuel ctx p k s).1 ∧
      EndsAlikeIn (fun a b => a.rand = b.rand) (samplePrompts (system c) fuel ctx p k s).2
        (samplePrompts (system c') fuel (ctx.relabel ν) p' k s').2 := by
  intro s s' hr shelf shelf' hs hs' ν τ hS ctx p p' hctx hp fuel k
  obtain ⟨h1, h2⟩ := files_decide_prompts c past ops hoff hq shelf hs fuel ctx p k
  obtain ⟨h3, h4⟩ := files_decide_prompts c' past' ops' hoff' hq' shelf' hs' fuel (ctx.relabel ν) p' k
  obtain ⟨h5, h6⟩ := renaming_wildcards hS hctx hp fuel k s.rand
  have e : (samplePrompts (withShelf c' shelf') fuel (ctx.relabel ν) p' k s'.rand) =
    samplePrompts (withShelf c' shelf') fuel (ctx.relabel ν) p' k s.rand := by rw [hr]
  exact ⟨h3.trans ((congrArg Prod.fst e).trans (h5.trans h1.symm)), endsAlikeIn_of h2 h6 (congrArg Prod.snd e ▸ h4)⟩

/-! ### An example -/

/-- A command's wildcards are moved if its parts' are. -/
theorem allMoved_parts {c : Cmd} (h1 : ∀ path m v, c = .wild path m v → Moved E E' ν τ path ∧
      ∀ wc items i, Named E path wc → Values E wc items → i ∈ items → ReadsTo E E' ν i.content (τ i.content))
    (h2 : ∀ d, Part E c d → AllMoved E E' ν τ d) : AllMoved E E' ν τ c := by
  intro path m v hx
  rcases Relation.ReflTransGen.cases_head hx with rfl | ⟨y, hy, hyx⟩
  · exact h1 _ _ _ rfl
  · exact h2 y hy _ _ _ hyx

/-- `outfits` mentions `colors`. -/
def wardrobe : Env Nat :=
  { genEnv with getValues := fun s => pure (if s = c!"outfits" then [⟨c!"__colors__ hat", some 2⟩, ⟨c!"coat", none⟩]
      else if s = c!"colors" then [⟨c!"red", none⟩, ⟨c!"blue", none⟩] else []) }

/-- The same values under other names. -/
def wardrobe' : Env Nat :=
  { genEnv with getValues := fun s => pure (if s = c!"clothes" then [⟨c!"__hues__ hat", some 2⟩, ⟨c!"coat", none⟩]
      else if s = c!"hues" then [⟨c!"red", none⟩, ⟨c!"blue", none⟩] else []) }

/-- The new names. -/
def newNames (n : Str) : Str :=
  if n = c!"outfits" then c!"clothes" else if n = c!"clothes" then c!"outfits" else
  if n = c!"colors" then c!"hues" else if n = c!"hues" then c!"colors" else n

/-- The new values. -/
def newValues (v : Str) : Str := if v = c!"__colors__ hat" then c!"__hues__ hat" else v

theorem newNames_twice (n : Str) : newNames (newNames n) = n := by
  unfold newNames
  by_cases h1 : n = c!"outfits"
  · subst h1; decide
  by_cases h2 : n = c!"clothes"
  · subst h2; decide
  by_cases h3 : n = c!"colors"
  · subst h3; decide
  by_cases h4 : n = c!"hues"
  · subst h4; decide
  simp only [if_neg h1, if_neg h2, if_neg h3, if_neg h4]

theorem newNames_relabels : Relabels wardrobe wardrobe' newNames newValues where
  different a b h := by rw [← newNames_twice a, h, newNames_twice]
  rng := rfl
  whitespace := rfl
  missing := rfl
  unknown := rfl
  unknownMoved u h := by cases h

theorem wardrobe_colors {wc : Str} {items : List Item} (hn : Named wardrobe (.inl c!"colors") wc)
    (h : Values wardrobe wc items) : items = [⟨c!"red", none⟩, ⟨c!"blue", none⟩] := by
  have : wc = c!"colors" := named_plain (E := wardrobe) (t := c!"colors") (m := none) (by decide +kernel) hn
  subst this
  obtain ⟨w, w', h⟩ := h
  cases h; rfl

theorem wardrobe_outfits {wc : Str} {items : List Item} (hn : Named wardrobe (.inl c!"outfits") wc)
    (h : Values wardrobe wc items) : items = [⟨c!"__colors__ hat", some 2⟩, ⟨c!"coat", none⟩] := by
  have : wc = c!"outfits" := named_plain (E := wardrobe) (t := c!"outfits") (m := none) (by decide +kernel) hn
  subst this
  obtain ⟨w, w', h⟩ := h
  cases h; rfl

theorem readsTo_of {s s' : Str} {c : Cmd} (h1 : s ≠ []) (h2 : s' ≠ []) (h3 : E.parse s = .ok c)
    (h4 : E'.parse s' = .ok (c.relabel ν)) : ReadsTo E E' ν s s' :=
  ⟨by simp [h1, h2], fun d hd => by rw [h3] at hd; cases hd; exact h4, fun e he => by rw [h3] at he; cases he⟩

theorem colors_moved (m : Option Method) : AllMoved wardrobe wardrobe' newNames newValues (.wild (.inl c!"colors") m []) := by
  refine allMoved_parts (fun path m v e => ?_) fun d h => ?_
  · cases e
    refine ⟨.renamed ⟨by decide, by decide +kernel, rfl⟩ ⟨by decide, by decide +kernel, rfl⟩ rfl (fun w w' h => by cases h), ?_⟩
    intro wc items i hn hv hi
    rw [wardrobe_colors hn hv] at hi
    simp only [List.mem_cons, List.not_mem_nil, or_false] at hi
    rcases hi with rfl | rfl
    · exact readsTo_of (c := .lit c!"red" none) (by decide) (by decide) (by decide +kernel) (by decide +kernel)
    · exact readsTo_of (c := .lit c!"blue" none) (by decide) (by decide) (by decide +kernel) (by decide +kernel)
  · cases h with
    | pathText h => rw [show wardrobe.parse c!"colors" = .ok (.lit c!"colors" none) by decide +kernel] at h; cases h; exact moved_lit
    | param h => cases h
    | value hn hv hi hp =>
      rw [wardrobe_colors hn hv] at hi
      simp only [List.mem_cons, List.not_mem_nil, or_false] at hi
      rcases hi with rfl | rfl
      · rw [show wardrobe.parse c!"red" = .ok (.lit c!"red" none) by decide +kernel] at hp; cases hp; exact moved_lit
      · rw [show wardrobe.parse c!"blue" = .ok (.lit c!"blue" none) by decide +kernel] at hp; cases hp; exact moved_lit

theorem hat_moved : AllMoved wardrobe wardrobe' newNames newValues
    (.seq [.wild (.inl c!"colors") none [], .lit c!" hat" none] [] none) := by
  refine allMoved_parts (fun path m v e => by cases e) fun d h => ?_
  cases h with
  | token h =>
    simp only [List.mem_cons, List.not_mem_nil, or_false] at h
    rcases h with rfl | rfl
    · exact colors_moved none
    · exact moved_lit

theorem outfits_moved : AllMoved wardrobe wardrobe' newNames newValues (.wild (.inl c!"outfits") none []) := by
  have hat : wardrobe.parse c!"__colors__ hat" = .ok (.seq [.wild (.inl c!"colors") none [], .lit c!" hat" none] [] none) := by
    decide +kernel
  refine allMoved_parts (fun path m v e => ?_) fun d h => ?_
  · cases e
    refine ⟨.renamed ⟨by decide, by decide +kernel, rfl⟩ ⟨by decide, by decide +kernel, rfl⟩ rfl (fun w w' h => by cases h), ?_⟩
    intro wc items i hn hv hi
    rw [wardrobe_outfits hn hv] at hi
    simp only [List.mem_cons, List.not_mem_nil, or_false] at hi
    rcases hi with rfl | rfl
    · exact readsTo_of (by decide) (by decide) hat (by decide +kernel)
    · exact readsTo_of (c := .lit c!"coat" none) (by decide) (by decide) (by decide +kernel) (by decide +kernel)
  · cases h with
    | pathText h => rw [show wardrobe.parse c!"outfits" = .ok (.lit c!"outfits" none) by decide +kernel] at h; cases h; exact moved_lit
    | param h => cases h
    | value hn hv hi hp =>
      rw [wardrobe_outfits hn hv] at hi
      simp only [List.mem_cons, List.not_mem_nil, or_false] at hi
      rcases hi with rfl | rfl
      · rw [hat] at hp; cases hp; exact hat_moved
      · rw [show wardrobe.parse c!"coat" = .ok (.lit c!"coat" none) by decide +kernel] at hp; cases hp; exact moved_lit

/-- `a __outfits__ and {__@colors__|plain}` -/
def outfitTemplate : List Piece :=
  [.text c!"a ", .wild none [.text c!"outfits"] [], .text c!" and ",
   .choice [] none none (.mk [] none [.wild (some .cyc) [.text c!"colors"] []]) [.mk [] none [.text c!"plain"]]]

example : source outfitTemplate = c!"a __outfits__ and {__@colors__|plain}" ∧
    source (piecesRelabel newNames outfitTemplate) = c!"a __clothes__ and {__@hues__|plain}" := by decide +kernel

theorem outfitTemplate_moved : AllMoved wardrobe wardrobe' newNames newValues (meaning outfitTemplate) := by
  rw [show meaning outfitTemplate = .seq [.lit c!"a " none, .wild (.inl c!"outfits") none [], .lit c!" and " none,
    .variant [(.wild (.inl c!"colors") (some .cyc) [], 1), (.lit c!"plain" none, 1)] 1 1 c!"," none] [] none by decide +kernel]
  refine allMoved_parts (fun path m v e => by cases e) fun d h => ?_
  cases h with
  | token h =>
    simp only [List.mem_cons, List.not_mem_nil, or_false] at h
    rcases h with rfl | rfl | rfl | rfl
    · exact moved_lit
    · exact outfits_moved
    · exact moved_lit
    · refine moved_variant fun p h => ?_
      simp only [List.mem_cons, List.not_mem_nil, or_false] at h
      rcases h with rfl | rfl
      · exact colors_moved _
      · exact moved_lit

/-- The wildcards `outfits` and `colors` become `clothes` and `hues`: the prompts stay as they are, with every method. -/
example (m : Method) (n k w : Nat) :
    (samplePrompts wardrobe' n (Demo.ctx m) (.inl c!"a __clothes__ and {__@hues__|plain}") k w).1 =
      (samplePrompts wardrobe n (Demo.ctx m) (.inl c!"a __outfits__ and {__@colors__|plain}") k w).1 := by
  have := (renaming_wildcards_in_templates (ps := outfitTemplate) (ctx := Demo.ctx m) (fun _ => false) rfl rfl newNames_relabels
    (by simp [Demo.ctx]) (by decide +kernel) (by decide +kernel) (by decide +kernel) (by decide +kernel) (by decide +kernel)
    (by decide +kernel)
    (by simp [outfitTemplate, piecesPathsStay, Piece.pathsStay, Opt.pathsStay, optsPathsStay, paramsPathsStay, PathStays])
    outfitTemplate_moved n k w).1
  exact this

example : (samplePrompts wardrobe 40 (Demo.ctx .cyc) (.inl c!"a __outfits__ and {__@colors__|plain}") 4 0).1 =
    [c!"a red hat and red", c!"a red hat and plain", c!"a coat and blue", c!"a blue hat and plain"] := by decide +kernel

/-- A wildcard without values is not covered: it stands for its own name. -/
example : (samplePrompts wardrobe 40 (Demo.ctx .comb) (.inl c!"a __shoes__") 2 0).1 ≠
    (samplePrompts wardrobe' 40 (Demo.ctx .comb) (.inl c!"a __boots__") 2 0).1 := by decide +kernel

/-- The files of `sysFs` with `d/a.txt` moved to `hues.txt`. -/
def movedFs : FNode :=
  .dir [(c!"w", .dir [(c!"b.txt", .file c!"red\n{dark|light} __a__\n# no\nred"), (c!"hues.txt", .file c!"blue\ngreen")])]

/-- The new name. -/
def hueName (n : Str) : Str := if n = c!"d/a" then c!"hues" else if n = c!"hues" then c!"d/a" else n

theorem hueName_twice (n : Str) : hueName (hueName n) = n := by
  unfold hueName
  by_cases h1 : n = c!"d/a"
  · subst h1; decide
  by_cases h2 : n = c!"hues"
  · subst h2; decide
  simp only [if_neg h1, if_neg h2]

/-- `a __d/a__` with the old files and `a __hues__` with the new ones, the second with a manager that has been used. -/
example (m : Method) (fuel k : Nat) :
    (samplePrompts (system sysCfg) fuel (Demo.ctx m) (.inl c!"a __hues__") k
        (runSys sysCfg [.mgr (.get c!"b"), .rand 5] ⟨Mgr.clearCache (newMgr movedFs 0), 0⟩)).1 =
      (samplePrompts (system sysCfg) fuel (Demo.ctx m) (.inl c!"a __d/a__") k ⟨Mgr.clearCache (newMgr sysFs 0), 5⟩).1 := by
  have e1 : shelfOf sysCfg.mgr sysFs true true c!"d/a" = .ok [⟨c!"blue", none⟩, ⟨c!"green", none⟩] := by decide +kernel
  have e2 : shelfOf sysCfg.mgr movedFs true true c!"hues" = .ok [⟨c!"blue", none⟩, ⟨c!"green", none⟩] := by decide +kernel
  have named : ∀ {wc items}, Named (withShelf sysCfg (shelfOf sysCfg.mgr sysFs true true)) (.inl c!"d/a") wc →
      Values (withShelf sysCfg (shelfOf sysCfg.mgr sysFs true true)) wc items → items = [⟨c!"blue", none⟩, ⟨c!"green", none⟩] := by
    intro wc items hn h
    have : wc = c!"d/a" := named_plain (t := c!"d/a") (m := none) (by decide +kernel) hn
    subst this
    obtain ⟨w, w', h⟩ := h
    rw [show (withShelf sysCfg (shelfOf sysCfg.mgr sysFs true true)).getValues c!"d/a" = _ from congrArg M.lift e1] at h
    cases h; rfl
  have wild : AllMoved (withShelf sysCfg (shelfOf sysCfg.mgr sysFs true true)) (withShelf sysCfg (shelfOf sysCfg.mgr movedFs true true))
      hueName id (.wild (.inl c!"d/a") none []) := by
    refine allMoved_parts (fun path m v e => ?_) fun d h => ?_
    · cases e
      refine ⟨.renamed ⟨by decide, by decide +kernel, rfl⟩ ⟨by decide, by decide +kernel, rfl⟩ ?_ (fun w w' h => ?_), ?_⟩
      · show M.lift (shelfOf sysCfg.mgr movedFs true true c!"hues") = (do
          let items ← M.lift (shelfOf sysCfg.mgr sysFs true true c!"d/a"); return items.map (retext id))
        rw [e1, e2]; rfl
      · rw [show (withShelf sysCfg (shelfOf sysCfg.mgr sysFs true true)).getValues c!"d/a" = _ from congrArg M.lift e1] at h
        cases h
      · intro wc items i hn hv hi
        rw [named hn hv] at hi
        simp only [List.mem_cons, List.not_mem_nil, or_false] at hi
        rcases hi with rfl | rfl
        · exact readsTo_of (c := .lit c!"blue" none) (by decide) (by decide) (by decide +kernel) (by decide +kernel)
        · exact readsTo_of (c := .lit c!"green" none) (by decide) (by decide) (by decide +kernel) (by decide +kernel)
    · cases h with
      | pathText h =>
        rw [show (withShelf sysCfg (shelfOf sysCfg.mgr sysFs true true)).parse c!"d/a" = .ok (.lit c!"d/a" none) by decide +kernel] at h
        cases h; exact moved_lit
      | param h => cases h
      | value hn hv hi hp =>
        rw [named hn hv] at hi
        simp only [List.mem_cons, List.not_mem_nil, or_false] at hi
        rcases hi with rfl | rfl
        · rw [show (withShelf sysCfg (shelfOf sysCfg.mgr sysFs true true)).parse c!"blue" = .ok (.lit c!"blue" none) by decide +kernel] at hp
          cases hp; exact moved_lit
        · rw [show (withShelf sysCfg (shelfOf sysCfg.mgr sysFs true true)).parse c!"green" = .ok (.lit c!"green" none) by decide +kernel] at hp
          cases hp; exact moved_lit
  exact (renaming_wildcards_in_files sysCfg sysCfg ⟨newMgr sysFs 0, 5⟩ ⟨newMgr movedFs 0, 0⟩ [] [.mgr (.get c!"b"), .rand 5] rfl rfl
    (by simp) (by simp [Quiet, ReadOnly, NoShuffle]) rfl (shelfOf sysCfg.mgr sysFs true true) (shelfOf sysCfg.mgr movedFs true true)
    (shelfOf_onShelf _ _ _ _) (shelfOf_onShelf _ _ _ _) hueName id
    ⟨fun a b h => by rw [← hueName_twice a, h, hueName_twice], rfl, rfl, rfl, rfl, fun u h => by cases h⟩ (Demo.ctx m)
    (.inl c!"a __d/a__") (.inl c!"a __hues__") (by simp [Demo.ctx])
    (.text (c := .seq [.lit c!"a " none, .wild (.inl c!"d/a") none []] [] none) (by decide) (by decide) (by decide +kernel)
      (by decide +kernel) (allMoved_parts (fun path m v e => by cases e) fun d h => by
        cases h with
        | token h =>
          simp only [List.mem_cons, List.not_mem_nil, or_false] at h
          rcases h with rfl | rfl
          · exact moved_lit
          · exact wild)) fuel k).1

end Verif.Props
