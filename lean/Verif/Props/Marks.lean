import Verif.Props.Parser
import Verif.Proofs.ParserBare
/-!
# C68: other marks

The marks that begin and end the parts of a template can be chosen (`ParserConfig`).  Whatever marks are
chosen, as long as they can be told apart, templates written with them are read as what they stand for.
`Spec.Marks.usable` says which marks can be told apart, `Spec.ok` which templates are written
unambiguously with them.
-/

namespace Verif.Props
open Verif.Spec (Piece Opt Param Marks source meaning meanings)
variable {W : Type}

/-- The default marks can be told apart. -/
theorem default_marks_usable (al : Char → Bool) : ({} : Marks).usable al = true :=
  usable_default al

/-- **C68.**  Whatever is written unambiguously with usable marks is parsed as what it stands for. -/
theorem parse_source_marks (M : Marks) (al : Char → Bool) (hM : M.usable al = true) (ps : List Piece)
    (h : Spec.ok .top ps M = true) (ht : '\t' ∉ source ps M) :
    parse (.of M al) (source ps M) = .ok (meaning ps) := by
  unfold parse parseAt
  rw [expandTabs_of_not_mem 0 _ ht, parsers_top (Fit.of hM) _ h (Nat.lt_succ_self _)]
  rfl

/-- **C68.**  The marks do not matter: a template written with one set of marks and the same template written
with another stand for the same command. -/
theorem marks_alike (M N : Marks) (al : Char → Bool) (hM : M.usable al = true) (hN : N.usable al = true)
    (ps : List Piece) (h : Spec.ok .top ps M = true) (h' : Spec.ok .top ps N = true)
    (ht : '\t' ∉ source ps M) (ht' : '\t' ∉ source ps N) :
    parse (.of M al) (source ps M) = parse (.of N al) (source ps N) := by
  rw [parse_source_marks M al hM ps h ht, parse_source_marks N al hN ps h' ht']

/-- **C68.**  What is written alike with the same marks means the same. -/
theorem marks_unambiguous (M : Marks) (hM : M.usable (fun _ => false) = true) (ps qs : List Piece)
    (hp : Spec.ok .top ps M = true) (hq : Spec.ok .top qs M = true) (ht : '\t' ∉ source ps M)
    (he : source ps M = source qs M) : meaning ps = meaning qs := by
  have h1 := parse_source_marks M _ hM ps hp ht
  have h2 := parse_source_marks M _ hM qs hq (he ▸ ht)
  rw [he, h2] at h1
  exact (Except.ok.inj h1).symm

/-- **C68.**  Sampling the text of a template written with other marks is sampling the command it stands for:
the same prompts and the same end. -/
theorem marked_text_and_command_alike (E : Env W) (M : Marks) (al : Char → Bool) (hM : M.usable al = true)
    (hE : E.parse = parse (.of M al)) (ps : List Piece) (h : Spec.ok .top ps M = true)
    (ht : '\t' ∉ source ps M) (hm : ps = [] ∨ meanings ps ≠ []) (fuel : Nat) (ctx : Ctx) (k : Nat) (w : W) :
    samplePrompts E fuel ctx (.inl (source ps M)) k w = samplePrompts E fuel ctx (.inr (meaning ps)) k w := by
  unfold samplePrompts
  rw [sampleGen_source E ps (source_text (Fit.of hM) h hm) (hE ▸ parse_source_marks M al hM ps h ht)]

/-- The marks of the documentation: `<a|b>` and `**name**`. -/
def angles : Marks := { variantStart := c!"<", variantEnd := c!">", wildcardWrap := c!"**" }

/-- All marks changed. -/
def doubled : Marks where
  variantStart := c!"{{"
  variantEnd := c!"}}"
  wildcardWrap := c!"@@"
  variableStart := c!"${{"
  variableEnd := c!"}}"
  wrapStart := c!"%{{"
  wrapEnd := c!"}}"

example : angles.usable (fun _ => false) = true ∧ doubled.usable (fun _ => false) = true := by decide +kernel

/-- A template with `angles`: bounds with a separator, weights, nested variants, wildcards, a variable. -/
def anglesTemplate : List Piece :=
  [.text c!"A ", .choice [] none (some (.exact c!"2", some c!" and ")) (.mk [] none [.text c!"red"])
    [.mk [] (some ⟨c!"3", none, []⟩) [.choice [] none none (.mk [] none [.text c!"x"]) [.mk [] none [.text c!"y"]]],
     .mk [] none [.wild (some .cyc) [.text c!"co__lors"] []]],
   .text c!" ball ", .get [] c!"v" []]

example : Spec.ok .top anglesTemplate angles = true ∧ '\t' ∉ source anglesTemplate angles ∧
    source anglesTemplate angles = c!"A <2$$ and $$red|3::<x|y>|**@co__lors**> ball ${v}" ∧
    parse (.of angles fun _ => false) c!"A <2$$ and $$red|3::<x|y>|**@co__lors**> ball ${v}" =
      .ok (meaning anglesTemplate) := by decide +kernel

/-- The same template with the marks of the default syntax is not written unambiguously, because of the name of
the wildcard. -/
example : Spec.ok .top anglesTemplate = false := by decide +kernel

/-- Every kind of part, with all marks changed: the template of C49 means the same. -/
example : Spec.ok .top sampleTemplate doubled = true ∧ '\t' ∉ source sampleTemplate doubled ∧
    source sampleTemplate doubled =
      c!"${{ n ?=! z}} a {{ @2-$$ and $$ x|+0.5::{{y|}}|@@k_${{n:m }}(p={{u|v}})@@}} %{{[ ... ]$$ ${{q}}}}" ∧
    parse (.of doubled fun _ => false) (source sampleTemplate doubled) =
      parse (.default fun _ => false) (source sampleTemplate) := by decide +kernel

/-! ## Marks that text goes on into -/

theorem swallows_of {M : Marks} {al : Char → Bool} (hM : M.usable al = true) {d : Str}
    (hd : d = M.variableEnd ∨ d = M.wrapEnd) (h : M.closes d = false) : Swallows (.of M al) d := by
  have hF := Fit.of hM
  have hcl : Closing M d := .inr hd
  have hmk : ∀ d, Begins M d ∨ Closing M d → ∀ c ∈ d, isWs c = false := by
    intro d hd c hc
    have := (markOk_cases (hF.mark d hd)).2.1
    rw [List.all_eq_true] at this
    have := this c hc
    simp only [Bool.and_eq_true, Bool.not_eq_true'] at this
    exact blank_eq ▸ this.1.1
  obtain ⟨c, r, rfl, -⟩ := markOk_head (hF.mark d (.inr hcl))
  refine ⟨⟨c, r, rfl, ?_⟩, ?_, ?_, ?_⟩
  · have : (Spec.Place.inside.special M).contains c = false := h
    rw [Bool.eq_false_iff] at this ⊢
    intro h'
    apply this
    simp only [ParserCfg.variantSpecial, ParserCfg.special, ParserCfg.of, Bool.or_eq_true, List.contains_iff_mem,
      Spec.Place.special, List.mem_append, List.mem_cons, List.cons_append, List.nil_append] at h' ⊢
    tauto
  · intro u
    exact clash_prefix (hF.apart _ _ (.inl rfl) hcl)
  · intro x hx
    constructor
    · rw [Bool.eq_false_iff]
      intro h'
      simp only [ParserCfg.variantSpecial, ParserCfg.special, ParserCfg.of, Bool.or_eq_true, List.contains_iff_mem,
        List.mem_append, List.mem_cons, List.cons_append, List.nil_append] at h'
      have h1 := hmk M.variantStart (.inl (.inr (.inl rfl))) x
      have h2 := hmk M.variableStart (.inl (.inr (.inr (.inl rfl)))) x
      have h3 := hmk M.wrapStart (.inl (.inr (.inr (.inr rfl)))) x
      have h4 := hmk M.variantEnd (.inr (.inl rfl)) x
      rw [hx] at h1 h2 h3 h4
      rcases h' with (rfl | (h' | h') | h') | rfl | rfl | h'
      · cases hx
      · cases h1 h'
      · cases h2 h'
      · cases h3 h'
      · cases hx
      · cases hx
      · cases h4 h'
    · intro h'
      have := hmk M.wildcardWrap (.inl (.inl rfl)) x (List.mem_of_mem_head? h')
      rw [hx] at this; cases this
  · exact (markOk_cases (hF.mark M.wildcardWrap (.inl (.inl rfl)))).1

/-- **C69.**  If text inside a part goes on into the marks that end variables and wraps (as with `<` and `>` for
variants and the default marks otherwise), no template whatever has an assignment, a default or a wrap: each
text is either rejected or stands for a command without any. -/
theorem unclosed_marks (M : Marks) (al : Char → Bool) (hM : M.usable al = true)
    (h1 : M.closes M.variableEnd = false) (h2 : M.closes M.wrapEnd = false) (t : Str) (c : Cmd)
    (h : parse (.of M al) t = .ok c) : Spec.Bare c :=
  parse_bare (swallows_of hM (.inl rfl) h1) (swallows_of hM (.inr rfl) h2) h

/-- A text at whose beginning no part of a template can be read is rejected. -/
theorem rejected_of_chunk {M : Marks} {al : Char → Bool} (hM : Fit M al) {d : Str} (hd : Begins M d) {u : Str}
    (ht : '\t' ∉ d ++ u)
    (h : ∀ n, P.All (fun _ => False) (chunk (.of M al) (parsers (.of M al) n).1 (parsers (.of M al) n).2 (d ++ u)))
    (c : Cmd) : parse (.of M al) (d ++ u) ≠ .ok c := by
  have hk := hM.mark d (.inl hd)
  intro hp
  unfold parse parseAt at hp
  rw [expandTabs_of_not_mem 0 _ ht] at hp
  have hsol := mark_solid hk u
  have hal : (d ++ u).all (ParserCfg.of M al).isAlnum = false := by
    obtain ⟨c, d', rfl, -⟩ := markOk_head hk
    have h1 := hM.head _ (.inl hd)
    simp only [List.head?_cons, Option.any_some, Bool.or_eq_false_iff, letter_eq, digit_eq] at h1
    simp only [List.cons_append, List.all_cons, Bool.and_eq_false_iff]
    left
    unfold ParserCfg.isAlnum
    split
    · exact Bool.or_eq_false_iff.2 h1.1.1
    · rename_i hlt
      have h2 := h1.1.2
      rw [decide_eq_true (by omega), Bool.true_and] at h2
      exact h2
  have hres : P.All (fun _ => False) ((parsers (.of M al) ((d ++ u).length + 1)).2 (d ++ u)) := by
    show P.All _ (parseTok (.of M al) _ _ (d ++ u))
    unfold parseTok
    rw [hal, Bool.and_false, if_neg (by simp)]
    unfold promptTok many
    rw [hsol.skip]
    simp only [Bool.false_eq_true, if_false]
    have hc := h (d ++ u).length
    split
    · rename_i a r e
      exact (hc a r e).elim
    · simp only [P.bind]
      rw [optWs_solid hsol, if_neg (by
        have := (markOk_cases hk).1
        simp [this])]
      exact .fail
    · exact .err
    · exact .fuel
  split at hp
  · rename_i c' r e
    exact hres _ _ e
  all_goals cases hp

/-- **C69.**  With such marks every text that begins with a wrap is rejected. -/
theorem wraps_rejected (M : Marks) (al : Char → Bool) (hM : M.usable al = true)
    (h : M.closes M.wrapEnd = false) (t : Str) (ht : '\t' ∉ M.wrapStart ++ t) (c : Cmd) :
    parse (.of M al) (M.wrapStart ++ t) ≠ .ok c := by
  have hF := Fit.of hM
  have hsol := mark_solid (hF.mark M.wrapStart (.inl (.inr (.inr (.inr rfl))))) t
  refine rejected_of_chunk hF (.inr (.inr (.inr rfl))) ht (fun n => ?_) c
  have hw : P.All (fun _ => False) (wrapCommand (.of M al) (parsers (.of M al) n).1 (M.wrapStart ++ t)) := by
    unfold wrapCommand
    refine .skip' fun _ _ => .skip' fun _ _ => .skip' fun _ _ => .bind' fun v r e => ?_
    show P.All _ ((tok M.wrapEnd r).bind _)
    rw [(parsers_no_end (swallows_of hM (.inr rfl) h) _ _ _ _ e).2]
    exact .fail
  unfold chunk variableAccess
  rw [assign_fail (by rw [hsol.skip]; exact clash_prefix (hF.apart3)),
    access_fail (by rw [hsol.skip]; exact clash_prefix (hF.apart3)),
    variants_fail (by rw [hsol.skip]; exact clash_prefix (hF.apart2)),
    wild_fail (by rw [hsol.skip]; exact clash_prefix (hF.apart4 _ (.inr (.inr rfl))))]
  simp only [P.fail_bind, P.fail_or]
  refine .or hw ?_
  have : literal M.wildcardWrap (ParserCfg.of M al).special (M.wrapStart ++ t) = .fail := literal_fail (by
    rw [hsol.skip]
    exact .inr (.inl (exOf_opening (l := .top) (.inr (.inr rfl))
      (markOk_cases (hF.mark M.wrapStart (.inl (.inr (.inr (.inr rfl)))))).1 _)))
  exact fun a r e => by
    have e' := this.symm.trans e
    cases e'

/-- **C69.**  With such marks every text that begins with an assignment is rejected. -/
theorem assignments_rejected (M : Marks) (al : Char → Bool) (hM : M.usable al = true)
    (h : M.closes M.variableEnd = false) (n t : Str) (hn : Spec.varName n = true)
    (ht : '\t' ∉ M.variableStart ++ (n ++ (c!"=" ++ t))) (c : Cmd) :
    parse (.of M al) (M.variableStart ++ (n ++ (c!"=" ++ t))) ≠ .ok c := by
  have hF := Fit.of hM
  have hk := hF.mark M.variableStart (.inl (.inr (.inr (.inl rfl))))
  have hsol := mark_solid hk (n ++ (c!"=" ++ t))
  have he := parsers_no_end (swallows_of hM (.inl rfl) h)
  refine rejected_of_chunk hF (.inr (.inr (.inl rfl))) ht (fun k => ?_) c
  have ha : P.All (fun _ => False) (variableAssignment (.of M al) (parsers (.of M al) k).1
      (M.variableStart ++ (n ++ (c!"=" ++ t)))) := by
    unfold variableAssignment
    refine .skip' fun _ _ => .skip' fun _ _ => .skip' fun _ _ => .skip' fun _ _ => .skip' fun _ _ =>
      .bind' fun v r e => ?_
    show P.All _ ((tok M.variableEnd (optWs r)).bind _)
    rw [(he _ _ _ _ e).1]
    exact .fail
  have hac : accessTok (.of M al) (parsers (.of M al) k).1 (M.variableStart ++ (n ++ (c!"=" ++ t))) = .fail := by
    obtain ⟨e1, e2⟩ := name_ok (w1 := []) (w2 := []) (R := c!"=" ++ t) rfl hn rfl rfl rfl
    unfold accessTok
    show (tok M.variableStart _).bind _ = _
    rw [tok_ok M.variableStart hsol.skip, P.ok_bind]
    rw [List.nil_append, List.nil_append] at e1
    rw [e1]
    simp only [P.ok_bind]
    rw [List.nil_append] at e2
    rw [e2, tok_fail (by rfl), P.fail_bind]
    have hq : Solid (c!"=" ++ t) := rfl
    simp only [P.opt, P.ok_bind]
    rw [hq.skip, optWs_solid hq]
    show (tok M.variableEnd _).bind _ = _
    rw [tok_fail, P.fail_bind]
    rw [hq.skip]
    obtain ⟨a, d, e, -⟩ := markOk_head (hF.mark M.variableEnd (.inr (.inr (.inl rfl))))
    have := closing_not hF (d := M.variableEnd) (.inr (.inl rfl)) (c := '=') (by decide) []
    rw [e]
    rw [e] at this
    simp only [List.append_nil, List.head?_cons, ne_eq, Option.some.injEq] at this
    simp [List.isPrefixOf, this]
  unfold chunk variableAccess
  rw [hac, wrap_fail (by rw [hsol.skip]; exact clash_prefix (clash_symm hF.apart3)),
    variants_fail (by rw [hsol.skip]; exact clash_prefix hF.apart1),
    wild_fail (by rw [hsol.skip]; exact clash_prefix (hF.apart4 _ (.inr (.inl rfl))))]
  simp only [P.fail_bind, P.fail_or]
  refine .or ha ?_
  have : literal M.wildcardWrap (ParserCfg.of M al).special (M.variableStart ++ (n ++ (c!"=" ++ t))) = .fail :=
    literal_fail (by
      rw [hsol.skip]
      exact .inr (.inl (exOf_opening (l := .top) (.inr (.inl rfl)) (markOk_cases hk).1 _)))
  exact fun a r e => by
    have e' := this.symm.trans e
    cases e'

/-- The marks of the documentation are such marks: assignments, defaults and wraps are syntax errors, other
templates are not. -/
example : angles.closes angles.variableEnd = false ∧ angles.closes angles.wrapEnd = false ∧
    parse (.of angles fun _ => false) c!"${x=a} b" = .error .parse ∧
    parse (.of angles fun _ => false) c!"${x:a} b" = .error .parse ∧
    parse (.of angles fun _ => false) c!"%{a ...$$b}" = .error .parse ∧
    parse (.of angles fun _ => false) c!"${x} <a|b}>" = .ok (.seq [.access c!"x" none, .lit c!" " none,
      .variant [(.lit c!"a" none, 1), (.lit c!"b}" none, 1)] 1 1 c!"," none] [] none) := by decide +kernel

/-- Why `Spec.boundOk` asks for a separator with these marks: separators exclude `{` and `}`, not the marks of the
configuration, so that everything up to the next `$$` is taken for one. -/
example : parse (.of angles fun _ => false) c!"<1$$a|b>, <2$$c|d>" =
    .ok (.variant [(.lit c!"c" none, 1), (.lit c!"d" none, 1)] 1 1 c!"a|b>, <2" none) := by decide +kernel

/-- With the default marks all of these are possible. -/
example : ∃ t c, parse (.default fun _ => false) t = .ok c ∧ ¬ Spec.Bare c :=
  ⟨c!"${x=a}", .assign c!"x" (.lit c!"a" none) false true, by decide +kernel, by rintro ⟨⟩⟩

end Verif.Props
