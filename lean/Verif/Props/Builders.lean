import Verif.Model.Values
import Verif.Props.Parser
import Verif.Props.Language
import Verif.Props.Combinatorial
/-!
# C83 Commands made by code
-/

namespace Verif.Props
open Verif Verif.Spec

variable {W : Type}

theorem variantFromLiterals_eq (literals : List Str) (weights : Option (List Rat)) (lo hi : Int) (sep : Str)
    (m : Option Method)
    (h : (literals.map fun v => Cmd.lit v none).length =
      (weights.getD (List.replicate (literals.map fun v => Cmd.lit v none).length 1)).length) :
    variantFromLiterals literals weights lo hi sep m = some (.mkVariant ((literals.map fun v => Cmd.lit v none).zip
      (weights.getD (List.replicate (literals.map fun v => Cmd.lit v none).length 1))) lo hi sep m) :=
  if_pos h

/-- **C83.**  `VariantCommand.from_literals_and_weights`: as many weights as texts are needed; the options are
the texts with their weights, in order, all of weight one if no weights are given; the bounds may be given
in either order and count as zero below zero. -/
theorem built_variant (literals : List Str) (weights : Option (List Rat)) (lo hi : Int) (sep : Str)
    (m : Option Method) :
    ((∃ ws, weights = some ws ∧ ws.length ≠ literals.length) →
      variantFromLiterals literals weights lo hi sep m = none) ∧
    ((∀ ws, weights = some ws → ws.length = literals.length) →
      ∃ c, variantFromLiterals literals weights lo hi sep m = some c ∧
        c.values = literals.map (.lit · none) ∧
        c.weights = weights.getD (literals.map fun _ => 1) ∧
        ∃ opts, c = .variant opts (max 0 (min lo hi)) (max lo hi) sep m ∧ opts.length = literals.length) := by
  constructor
  · rintro ⟨ws, rfl, h⟩
    simp [variantFromLiterals, Ne.symm h]
  · intro h
    have hl : (weights.getD (List.replicate (literals.map fun v => Cmd.lit v none).length 1)).length =
        literals.length := by
      cases weights with
      | none => simp
      | some ws => simpa using h ws rfl
    refine ⟨_, variantFromLiterals_eq literals weights lo hi sep m (by rw [hl]; simp), ?_, ?_, ?_⟩
    · exact List.map_fst_zip (by rw [hl]; simp)
    · refine (List.map_snd_zip (by rw [hl]; simp)).trans ?_
      cases weights with
      | none => simp
      | some ws => rfl
    · exact ⟨_, rfl, by rw [List.length_zip, hl]; simp⟩

/-! ## The template that stands for a variant made by code -/

/-- Texts without characters that mean something in a template: not empty, without `#`, `/`, `%`, `$`, braces,
bars, tabs and the mark of wildcards. -/
def Simple (t : Str) : Prop :=
  t ≠ [] ∧ (∀ c ∈ t, c ∉ c!"#/%${|}\t") ∧ ¬ c!"__" <:+: t

theorem unmarked {t : Str} (h : '#' ∉ t) (h' : '/' ∉ t) : marked t = false := by
  unfold marked
  have hd : ∀ c ∈ t.dropWhile blank, c ∈ t := fun c hc => (List.dropWhile_sublist _).subset hc
  split
  · rename_i e; exact absurd (hd '#' (by rw [e]; simp)) h
  · rename_i e; exact absurd (hd '/' (by rw [e]; simp)) h'
  · rename_i e; exact absurd (hd '/' (by rw [e]; simp)) h'
  · rfl

theorem unmarkedTail : ∀ {t : Str}, '#' ∉ t → '/' ∉ t → markedTail t = false
  | [], _, _ => rfl
  | c :: cs, h, h' => by
    simp only [List.mem_cons, not_or] at h h'
    simp [markedTail, unmarked h.2 h'.2, unmarkedTail h.2 h'.2]

theorem Simple.textOk {t : Str} (h : Simple t) : Spec.textOk .inside t = true := by
  obtain ⟨hne, hc, hw⟩ := h
  have h1 : '#' ∉ t := fun hm => hc _ hm (by decide)
  have h2 : '/' ∉ t := fun hm => hc _ hm (by decide)
  have hd : ∀ c ∈ t.dropWhile weightChar, c ∈ t := fun c hc => (List.dropWhile_sublist _).subset hc
  have hp : plain .inside t = true := by
    have hsp : Place.inside.special = c!"#{${%{|$}" := by decide
    unfold plain
    rw [hsp]
    simp only [Bool.and_eq_true, bne_iff_ne, ne_eq, Bool.not_eq_true', List.all_eq_true]
    refine ⟨⟨hne, fun c hm => ?_⟩, ?_⟩
    · have := hc c hm
      rw [List.contains_eq_mem, decide_eq_false_iff_not]
      intro hk
      apply this
      simp only [List.mem_cons, List.not_mem_nil, or_false] at hk ⊢
      rcases hk with h | h | h | h | h | h | h | h | h <;> simp [h]
    · rw [Bool.eq_false_iff]
      intro hs
      exact hw ((hasSub_iff _ _).1 hs)
  simp [Spec.textOk, hp, unmarked h1 h2, markedLine, unmarkedTail h1 h2,
    unmarked (fun h => h1 (hd _ h)) (fun h => h2 (hd _ h))]

theorem Simple.no_tab {t : Str} (h : Simple t) : '\t' ∉ t := fun hm => h.2.1 _ hm (by decide)

theorem digits_no_tab {ds : Str} (h : ds.all digit = true) : '\t' ∉ ds := by
  intro hm
  exact absurd (List.all_eq_true.1 h _ hm) (by decide)

theorem num_no_tab {n : Num} (h : n.ok = true) : '\t' ∉ n.source := by
  obtain ⟨w, d, s⟩ := n
  cases d with
  | none =>
    simp only [Num.ok, Bool.and_eq_true] at h
    exact digits_no_tab h.1
  | some d =>
    simp only [Num.ok, Bool.and_eq_true] at h
    have hs : '\t' ∉ s := by
      have := h.2
      simp only [List.contains_eq_mem, decide_eq_true_eq, List.mem_cons, List.not_mem_nil, or_false] at this
      rcases this with rfl | rfl | rfl <;> decide
    simp only [Num.source, List.mem_append, not_or]
    exact ⟨⟨⟨hs, digits_no_tab h.1.1.1⟩, by decide⟩, digits_no_tab h.1.1.2⟩

theorem separator_no_tab {s : Str} (h : separator s = true) : '\t' ∉ s := by
  intro hm
  simp only [separator, Bool.and_eq_true] at h
  exact absurd (List.all_eq_true.1 h.2 _ hm) (by decide)

/-- A text with its weight, as an option of a template. -/
def weighted (o : Num × Str) : Opt := .mk [] (some o.1) [.text o.2]

theorem weighted_ok {o : Num × Str} (hn : o.1.ok = true) (ht : Simple o.2) : (weighted o).ok = true := by
  have h1 : gapOk [] = true := by decide
  simp [weighted, Opt.ok, h1, hn, Spec.ok, Piece.ok, ht.textOk, follows]

theorem weighted_meaning (o : Num × Str) : (weighted o).meaning = (.lit o.2 none, o.1.value) := by
  simp [weighted, Opt.meaning, meanings, joinText, together]

theorem optsMeaning_map (os : List (Num × Str)) :
    optsMeaning (os.map weighted) = os.map fun o => (Cmd.lit o.2 none, o.1.value) := by
  induction os with
  | nil => rfl
  | cons o os ih => rw [List.map_cons, optsMeaning, ih, weighted_meaning]; rfl

theorem optsOk_map {os : List (Num × Str)} (h : ∀ o ∈ os, o.1.ok = true ∧ Simple o.2) :
    optsOk (os.map weighted) = true := by
  induction os with
  | nil => rfl
  | cons o os ih =>
    have := h o (by simp)
    rw [List.map_cons, optsOk, weighted_ok this.1 this.2, ih fun o ho => h o (by simp [ho])]; rfl

theorem optsSource_map (o : Num × Str) (os : List (Num × Str)) :
    (weighted o).source ++ optsSource (os.map weighted) =
      List.intercalate c!"|" ((o :: os).map fun o => o.1.source ++ c!"::" ++ o.2) := by
  induction os generalizing o with
  | nil => simp [weighted, Opt.source, optsSource, source, Piece.source, weightSource, List.intercalate]
  | cons o' os ih =>
    rw [List.map_cons, optsSource, List.append_assoc, ih o']
    simp [weighted, Opt.source, source, Piece.source, weightSource, List.intercalate]

/-- **C83.**  A variant made by code from texts, weights, bounds, a separator and a method is the command
the parser makes of the template `{~lo-hi$$sep$$w1::text1|w2::text2|…}`. -/
theorem built_variant_written (al : Char → Bool) (o : Num × Str) (os : List (Num × Str)) (lo hi sep : Str)
    (m : Option Method) (ho : ∀ x ∈ o :: os, x.1.ok = true ∧ Simple x.2) (hlo : numeral lo = true)
    (hhi : numeral hi = true) (hsep : separatorOk sep = true) :
    ∃ c, variantFromLiterals ((o :: os).map (·.2)) (some ((o :: os).map (·.1.value))) (natOf lo) (natOf hi)
        sep m = some c ∧
      parse (.default al) (c!"{" ++ methodSource m ++ lo ++ c!"-" ++ hi ++ c!"$$" ++ sep ++ c!"$$" ++
        List.intercalate c!"|" ((o :: os).map fun x => x.1.source ++ c!"::" ++ x.2) ++ c!"}") = .ok c := by
  let ps : List Piece := [.choice [] m (some (.between lo hi, some sep)) (weighted o) (os.map weighted)]
  have hsrc : c!"{" ++ methodSource m ++ lo ++ c!"-" ++ hi ++ c!"$$" ++ sep ++ c!"$$" ++
        List.intercalate c!"|" ((o :: os).map fun x => x.1.source ++ c!"::" ++ x.2) ++ c!"}" = source ps := by
    rw [← optsSource_map]
    simp [ps, source, Piece.source, boundSource, Bound.source]
  have hok : Spec.ok .top ps = true := by
    have h1 : gapOk [] = true := by decide
    have h2 := ho o (by simp)
    have h3 : optsOk (os.map weighted) = true := optsOk_map fun x hx => ho x (by simp [hx])
    simp [ps, Spec.ok, Piece.ok, h1, boundOk, Bound.ok, hlo, hhi, hsep, weighted_ok h2.1 h2.2, h3, follows]
  have htab : '\t' ∉ source ps := by
    rw [← hsrc]
    have hm : '\t' ∉ methodSource m := by
      cases m with
      | none => decide
      | some m => cases m <;> decide
    have hos : '\t' ∉ List.intercalate c!"|" ((o :: os).map fun x => x.1.source ++ c!"::" ++ x.2) := by
      rw [← optsSource_map]
      have key : ∀ os : List (Num × Str), (∀ x ∈ os, x.1.ok = true ∧ Simple x.2) →
          '\t' ∉ optsSource (os.map weighted) := by
        intro os
        induction os with
        | nil => intro _; simp [optsSource]
        | cons x os ih =>
          intro h
          have hx := h x (by simp)
          rw [List.map_cons, optsSource]
          simp only [weighted, Opt.source, source, Piece.source, weightSource, List.mem_append, not_or]
          exact ⟨⟨by decide, ⟨by simp, num_no_tab hx.1, by decide⟩, hx.2.no_tab, by simp⟩,
            ih fun y hy => h y (by simp [hy])⟩
      have hx := ho o (by simp)
      simp only [weighted, Opt.source, source, Piece.source, weightSource, List.mem_append, not_or]
      exact ⟨⟨⟨by simp, num_no_tab hx.1, by decide⟩, hx.2.no_tab, by simp⟩, key os fun y hy => ho y (by simp [hy])⟩
    simp only [numeral, Bool.and_eq_true] at hlo hhi
    simp only [separatorOk, Bool.and_eq_true] at hsep
    simp only [List.mem_append, not_or]
    exact ⟨⟨⟨⟨⟨⟨⟨⟨⟨by decide, hm⟩, digits_no_tab hlo.1⟩, by decide⟩, digits_no_tab hhi.1⟩, by decide⟩,
      separator_no_tab hsep.1⟩, by decide⟩, hos⟩, by decide⟩
  refine ⟨meaning ps, ?_, by rw [hsrc]; exact parse_source al ps hok htab⟩
  have hz : ∀ l : List (Num × Str), ((l.map (·.2)).map fun v => Cmd.lit v none).zip (l.map (·.1.value)) =
      l.map fun o => (Cmd.lit o.2 none, o.1.value) := by
    intro l
    induction l with
    | nil => rfl
    | cons x l ih => simp only [List.map_cons, List.zip_cons_cons, ih]
  have hmean : meaning ps = .variant ((o :: os).map fun o => (Cmd.lit o.2 none, o.1.value))
      ((min (natOf lo) (natOf hi) : Nat) : Int) ((max (natOf lo) (natOf hi) : Nat) : Int) sep m := by
    simp only [ps, meaning, meanings, together, Piece.meaning, variantOf, Bound.ends, weighted_meaning,
      optsMeaning_map, Option.getD_some, List.map_cons]
  rw [hmean, variantFromLiterals_eq _ _ _ _ _ _ (by simp), Option.getD_some, hz, Cmd.mkVariant]
  congr 2
  · simp only [normBounds]; omega
  · simp only [normBounds]; omega

/-- `{~2-1$$ + $$0.5::a b|3::c}` -/
example : (∀ x ∈ [((⟨c!"0", some c!"5", []⟩ : Num), c!"a b"), (⟨c!"3", none, []⟩, c!"c")], x.1.ok = true) ∧
    Simple c!"a b" ∧ separatorOk c!" + " = true ∧
    parse (.default fun _ => false) c!"{~2-1$$ + $$0.5::a b|3::c}" =
      .ok (.variant [(.lit c!"a b" none, 1 / 2), (.lit c!"c" none, 3)] 1 2 c!" + " (some .random)) := by
  refine ⟨by decide, ⟨by decide, by decide, ?_⟩, by decide, by decide +kernel⟩
  rw [← hasSub_iff]; decide

/-! ## Sequences -/

theorem joined_padded (sep : Str) (ls : List Str) (hne : ls ≠ []) :
    joined sep ([] :: ls ++ [[]]) = List.intercalate sep ls := by
  have h1 : pyJoin sep ([] :: ls ++ [[]]) = sep ++ List.intercalate sep ls ++ sep := by
    rw [pyJoin_eq_intercalate]
    have key : ∀ ls : List Str, ls ≠ [] → List.intercalate sep (ls ++ [[]]) = List.intercalate sep ls ++ sep := by
      intro ls
      induction ls with
      | nil => intro h; exact absurd rfl h
      | cons x ls ih =>
        intro _
        cases ls with
        | nil => simp [List.intercalate]
        | cons y ls =>
          have := ih (by simp)
          simp only [List.intercalate, List.cons_append, List.intersperse_cons_cons, List.flatten_cons] at this ⊢
          rw [this]; simp
    have h2 : List.intercalate sep ([] :: ls ++ [[]]) = sep ++ List.intercalate sep (ls ++ [[]]) := by
      cases ls with
      | nil => exact absurd rfl hne
      | cons y ls => simp [List.intercalate]
    rw [h2, key ls hne, List.append_assoc]
  have hj : joined sep ([] :: ls ++ [[]]) = if sep.isEmpty then pyJoin sep ([] :: ls ++ [[]]) else
      removesuffix (removeprefix (pyJoin sep ([] :: ls ++ [[]])) sep) sep := by
    cases ls with
    | nil => exact absurd rfl hne
    | cons y ls => rfl
  rw [hj, h1]
  cases sep with
  | nil => simp
  | cons c sep =>
    simp only [List.isEmpty_cons, Bool.false_eq_true, if_false]
    rw [List.append_assoc]
    have hp : removeprefix (c :: sep ++ (List.intercalate (c :: sep) ls ++ c :: sep)) (c :: sep) =
        List.intercalate (c :: sep) ls ++ c :: sep := by
      simp [removeprefix, startsWith]
    rw [hp]
    simp [removesuffix, endsWith]

/-- **C83.**  What `SequenceCommand.from_literals` makes: each text becomes a literal with the method of the
sequence, commands stay as they are. -/
theorem built_sequence_parts (values : List (Str ⊕ Cmd)) (sep : Str) (m : Option Method) :
    ∃ tokens, sequenceFromLiterals values sep m = .seq tokens sep m ∧ tokens.length = values.length ∧
      (∀ (i : Nat) t, values[i]? = some (.inl t) → tokens[i]? = some (.lit t m)) ∧
      ∀ (i : Nat) d, values[i]? = some (.inr d) → tokens[i]? = some d := by
  refine ⟨_, rfl, by simp, ?_, ?_⟩ <;> intro i x h <;> simp [h]

/-- **C83.**  A sequence made by code from texts gives, combinatorially, one prompt: the texts with the
separator between them, nothing stripped. -/
theorem built_sequence_combinatorial (E : Env W) (hws : E.ignoreWs = false) (ctx : Ctx) (hm : ctx.method = .comb)
    (texts : List Str) (hne : texts ≠ []) (sep : Str) (m : Option Method) (hm' : m = none ∨ m = some .comb) (w : W) :
    ∃ N, ∀ fuel ≥ N, ∀ k, 1 < k →
      samplePrompts E fuel ctx (.inr (sequenceFromLiterals (texts.map .inl) sep m)) k w =
        ([List.intercalate sep texts], .stop w) := by
  have hseq : sequenceFromLiterals (texts.map .inl) sep m = .seq (texts.map (.lit · m)) sep m := by
    simp [sequenceFromLiterals, Function.comp_def]
  rw [hseq]
  have hp : Spec.Plain E.ignoreWs (.seq (texts.map (Cmd.lit · m)) sep m) := by
    refine .seq hm' ?_ ?_
    · intro c hc
      obtain ⟨t, -, rfl⟩ := List.mem_map.1 hc
      exact .lit hm'
    · intro c hc _
      obtain ⟨t, -, rfl⟩ := List.mem_map.1 hc
      simp [enum]
  obtain ⟨N, hN⟩ := plain_enumerates E ctx hm _ hp w
  have hen : enum false (.seq (texts.map (Cmd.lit · m)) sep m) = [List.intercalate sep texts] := by
    have h1 : ∀ ts : List Str, product (enumL false (ts.map (Cmd.lit · m))) = [ts] := by
      intro ts
      induction ts with
      | nil => rfl
      | cons t ts ih => simp [enumL, enum, product, ih]
    rw [enum, h1]
    simp only [List.map_cons, List.map_nil, joined_padded sep texts hne]
  have htr : (Cmd.seq (texts.map (Cmd.lit · m)) sep m).truthy = true := by
    cases texts with
    | nil => exact absurd rfl hne
    | cons t ts => rfl
  refine ⟨N, fun fuel hf k hk => ?_⟩
  have := hN fuel hf k
  simp only [hws, unlessEmpty, htr, if_true, hen, List.map_cons, List.map_nil, squashIf, List.length_cons,
    List.length_nil] at this
  refine Prod.ext ?_ (this.2 (by omega))
  rw [this.1]
  exact List.take_of_length_le (by simp; omega)

/-- **C83.**  With any method, every prompt of such a sequence is the texts with the separator between them,
with at most one separator stripped from each end. -/
theorem built_sequence (E : Env W) (hws : E.ignoreWs = false) (ctx : Ctx) (texts : List Str) (hne : texts ≠ [])
    (sep : Str) (m : Option Method) (fuel k : Nat) (w : W) :
    ∀ s ∈ (samplePrompts E fuel ctx (.inr (sequenceFromLiterals (texts.map .inl) sep m)) k w).1,
      s = joined sep texts ∨ s = List.intercalate sep texts := by
  intro s hs
  have hseq : sequenceFromLiterals (texts.map .inl) sep m = .seq (texts.map (.lit · m)) sep m := by
    simp [sequenceFromLiterals, Function.comp_def]
  rw [hseq] at hs
  have hl := sampling_sound E fuel ctx _ k w s hs
  have hass : ∀ (vars : List (Str × Cmd)) (ts : List Str) toks' new,
      Assigned E vars (ts.map (Cmd.lit · m)) toks' new → toks' = ts.map (Cmd.lit · m) := by
    intro vars ts
    induction ts with
    | nil => intro toks' new h; cases h; rfl
    | cons t ts ih =>
      intro toks' new h
      cases h with
      | tok _ h => rw [ih _ _ h]; rfl
  generalize hp : (Sum.inr (Cmd.seq (texts.map (Cmd.lit · m)) sep m) : Prompt) = p at hl
  cases hl with
  | text => cases hp
  | cmd _ hl =>
    injection hp with hp
    subst hp
    rw [hws]
    simp only [Bool.false_eq_true, if_false]
    cases hl with
    | seq ha hL =>
      rw [hass _ _ _ _ ha] at hL
      exact .inl (by rw [langAll_lits hL])
    | seqPad ha hL =>
      rw [hass _ _ _ _ ha] at hL
      exact .inr (by rw [langAll_lits hL, joined_padded sep texts hne])

/-- The methods do differ: `["", "a"]` joined with `", "`. -/
example : (samplePrompts Demo.env 20 (Demo.ctx .comb) (.inr (sequenceFromLiterals [.inl [], .inl c!"a"] c!", " none)) 4 0).1 =
      [c!", a"] ∧
    (samplePrompts Demo.env 20 (Demo.ctx .cyc) (.inr (sequenceFromLiterals [.inl [], .inl c!"a"] c!", " none)) 2 0).1 =
      [c!"a", c!"a"] := by decide +kernel

/-! ## Adding literals -/

/-- **C83.**  Adding literals joins their texts with a space, in any grouping; nothing else can be added to a
literal. -/
theorem added_literals :
    (∀ a b m m', Cmd.add (.lit a m) (.lit b m') = some (.lit (a ++ c!" " ++ b) none)) ∧
    (∀ a b c : Cmd, ((a.add b).bind fun x => x.add c) = (b.add c).bind fun x => a.add x) ∧
    (∀ a b : Cmd, (a.add b).isSome = true ↔ ∃ s m t m', a = .lit s m ∧ b = .lit t m') := by
  refine ⟨fun _ _ _ _ => rfl, ?_, ?_⟩
  · intro a b c
    cases a <;> cases b <;> cases c <;> simp [Cmd.add]
  · intro a b
    cases a <;> cases b <;> simp [Cmd.add]

end Verif.Props
