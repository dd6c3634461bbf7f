import Verif.Proofs.ParserText
import Verif.Proofs.ParserShape
import Verif.Proofs.Names
import Verif.Props.Language
/-!
# C48–C50, C57–C61: the template parser

`parse` models `dynamicprompts.parser.parse.parse`.  `Spec/Syntax.lean` describes the template language
without mentioning the parser, `Spec/Parsed.lean` the shape of parsed templates.
-/

namespace Verif.Props
open Verif.Spec (Piece Opt Param source meaning meanings)
variable {W : Type}

/-! ## Plain text -/

/-- Text without any special character or character sequence: no `#`, none of the characters of the
delimiters of variants, variables and wraps, not the delimiter of wildcards, no tab, and no `//` or `/*`
at the beginning. -/
structure PlainText (cfg : ParserCfg) (t : Str) : Prop where
  nonempty : t ≠ []
  hash : '#' ∉ t
  noVariant : ∀ c ∈ t, c ∉ cfg.variantStart
  noVariable : ∀ c ∈ t, c ∉ cfg.variableStart
  noWrap : ∀ c ∈ t, c ∉ cfg.wrapStart
  noWildcard : ¬ cfg.wildcardWrap <:+: t
  tab : '\t' ∉ t
  lineComment : ¬ c!"//" <+: t.dropWhile Spec.blank
  blockComment : ¬ c!"/*" <+: t.dropWhile Spec.blank

theorem PlainText.plain {cfg : ParserCfg} {t : Str} (h : PlainText cfg t) : Plain cfg t where
  ne := h.nonempty
  special := by
    rw [List.all_eq_true]
    intro c hc
    simp only [ParserCfg.special, Bool.not_eq_true', Bool.eq_false_iff, ne_eq, List.contains_iff_mem,
      List.mem_cons, List.mem_append, List.cons_append, not_or]
    exact ⟨by rintro rfl; exact h.hash hc, ⟨h.noVariant c hc, h.noVariable c hc⟩, h.noWrap c hc⟩
  wrap := by
    rw [Bool.eq_false_iff, ne_eq, hasSub_iff]
    exact h.noWildcard
  line := by
    rw [Bool.eq_false_iff, ne_eq, List.isPrefixOf_iff_prefix, ← blank_eq]
    exact h.lineComment
  block := by
    rw [Bool.eq_false_iff, ne_eq, List.isPrefixOf_iff_prefix, ← blank_eq]
    exact h.blockComment

theorem comment_all_blank {t : Str} (h : t.all isWs = true) : comment t = none := by
  have : t.dropWhile isWs = [] := by
    have := dropWhile_all_append (b := []) h
    simpa using this
  unfold comment
  rw [this]

/-- **C48.**  Text without special characters is parsed as one literal with exactly that text, white space
included, whatever the delimiters. -/
theorem plain_text_parses_to_itself (cfg : ParserCfg) (hc : cfg.Usable) (hw : '#' ∉ cfg.wildcardWrap)
    (t : Str) (h : PlainText cfg t) : parse cfg t = .ok (.lit t none) := by
  have hnone : comment (t ++ (lineComments [] ++ [])) = none := by
    show comment (t ++ []) = none
    by_cases hb : t.all isWs = true
    · rw [List.append_nil]; exact comment_all_blank hb
    · exact comment_text (Bool.eq_false_iff.2 hb) h.hash h.plain.line h.plain.block (.inl rfl)
  have h' := parse_commented hc hw (.inl rfl : TextEnd []) [] t t (by simp) h.plain
    (by rw [show t ++ (lineComments [] ++ []) = t by simp [lineComments]] at hnone ⊢; exact skip_none hnone)
    (fun _ => ⟨rfl, rfl⟩) hnone h.tab
  exact h'

/-- The hypotheses hold of ordinary text with the default delimiters. -/
example : PlainText (.default fun _ => false) c!" A cat, a_dog / and (a bird:1.2)\n" where
  nonempty := by decide
  hash := by decide
  noVariant := by decide
  noVariable := by decide
  noWrap := by decide
  noWildcard := by decide
  tab := by decide
  lineComment := by decide
  blockComment := by decide

example : (ParserCfg.default fun _ => false).Usable := ⟨by decide, by decide, by decide, by decide⟩

theorem collect_rep (E : Env W) (n : Nat) (s : Str) (w : W) : ∀ k,
    collect E (n + 1) k (.rep s) w = (List.replicate k s, .limit (.rep s) w)
  | 0 => rfl
  | k + 1 => by
    show (s :: (collect E (n + 1) k (.rep s) w).1, (collect E (n + 1) k (.rep s) w).2) = _
    rw [collect_rep E n s w k]
    rfl

/-- **C48.**  Sampled at random or in cycles, plain text is returned verbatim as often as asked for;
sampled combinatorially, once. -/
theorem plain_text_is_returned (E : Env W) (hws : E.ignoreWs = false) (cfg : ParserCfg) (hc : cfg.Usable)
    (hw : '#' ∉ cfg.wildcardWrap) (hp : E.parse = parse cfg) (t : Str) (h : PlainText cfg t)
    (fuel : Nat) (ctx : Ctx) (k : Nat) (w : W) :
    (samplePrompts E (fuel + 1) ctx (.inl t) k w).1 =
      if ctx.method = .comb then [t].take k else List.replicate k t := by
  have hne : t.isEmpty = false := by simpa using h.nonempty
  have hg : sampleGen E ctx (.inl t) = .ok (.start ctx (.lit t none)) := by
    unfold sampleGen
    simp only [hne, hp, plain_text_parses_to_itself cfg hc hw t h, hws]
    rfl
  unfold samplePrompts
  rw [hg]
  cases k with
  | zero => simp [collect]
  | succ k =>
    by_cases hm : ctx.method = .comb
    · have h1 : nextG E (fuel + 1) (.start ctx (.lit t none)) w = .ok (some (t, .done)) w := by
        show stepG E (recs E fuel) (.start ctx (.lit t none)) w = _
        simp only [stepG, hm]; rfl
      have h2 : ∀ j, (collect E (fuel + 1) j .done w).1 = [] := by
        intro j; cases j <;> rfl
      simp only [collect, h1, h2]
      simp [hm]
    · have h1 : nextG E (fuel + 1) (.start ctx (.lit t none)) w = .ok (some (t, .rep t)) w := by
        show stepG E (recs E fuel) (.start ctx (.lit t none)) w = _
        cases hm' : ctx.method with
        | comb => exact absurd hm' hm
        | random => simp only [stepG, hm']; rfl
        | cyc => simp only [stepG, hm']; rfl
      simp only [collect, h1, collect_rep]
      rw [if_neg hm]
      rfl

/-! ## Comments -/

/-- **C59.**  In a text, everything from a `#` to the end of the line is a comment: the texts before, between
and after the comments are joined by single spaces.  The template may begin (`before`) and end (`after`)
with a comment.  The text after a comment begins with the end of the line. -/
theorem line_comments_ignored (cfg : ParserCfg) (hc : cfg.Usable) (hw : '#' ∉ cfg.wildcardWrap)
    (t : Str) (ht : PlainText cfg t) (hb : t.all Spec.blank = false) (parts : List (Str × Str))
    (hparts : ∀ p ∈ parts, '\n' ∉ p.1 ∧ '\t' ∉ p.1 ∧ PlainText cfg p.2 ∧ p.2.all Spec.blank = false ∧
      p.2.head? = some '\n')
    (before after : Option Str) (hbefore : ∀ c ∈ before, '\n' ∉ c ∧ '\t' ∉ c ∧ t.head? = some '\n')
    (hafter : ∀ c ∈ after, '\n' ∉ c ∧ '\t' ∉ c) :
    parse cfg ((before.map ('#' :: ·)).getD [] ++ t ++ parts.flatMap (fun p => '#' :: p.1 ++ p.2) ++
        (after.map ('#' :: ·)).getD []) =
      .ok (.lit (pyJoin c!" " (t :: parts.map (·.2))) none) := by
  have hl : ∀ ps : List (Str × Str), ps.flatMap (fun p => '#' :: p.1 ++ p.2) = lineComments ps := by
    intro ps
    induction ps with
    | nil => rfl
    | cons p ps ih => rw [List.flatMap_cons, ih]; simp [lineComments]
  rw [hl]
  set e := (after.map ('#' :: ·)).getD [] with he
  have hend : TextEnd e := by
    rw [he]
    cases after with
    | none => exact .inl rfl
    | some c => exact .inr ⟨c, (hafter c rfl).1, rfl⟩
  have hx : ∀ x ∈ parts, '\n' ∉ x.1 ∧ PlainLine cfg x.2 := by
    intro x hx
    obtain ⟨h1, -, h2, h3, h4⟩ := hparts x hx
    exact ⟨h1, { toPlain := h2.plain, start := h4, notBlank := by rw [← blank_eq]; exact h3 }⟩
  have hb' : t.all isWs = false := by rw [← blank_eq]; exact hb
  have hnone : comment (t ++ (lineComments parts ++ e)) = none :=
    comment_text hb' ht.hash ht.plain.line ht.plain.block (lineComments_head parts hend)
  have htabs : '\t' ∉ lineComments parts := by
    clear hnone hx
    induction parts with
    | nil => simp [lineComments]
    | cons p ps ih =>
      obtain ⟨-, h1, h2, -, -⟩ := hparts p List.mem_cons_self
      rw [lineComments]
      simp only [List.mem_cons, List.mem_append, not_or]
      exact ⟨by decide, h1, h2.tab, ih fun p hp => hparts p (List.mem_cons_of_mem _ hp)⟩
  have htabe : '\t' ∉ e := by
    rw [he]
    cases after with
    | none => simp
    | some c =>
      simp only [Option.map_some, Option.getD_some, List.mem_cons, not_or]
      exact ⟨by decide, (hafter c rfl).2⟩
  have hash : (ParserCfg.isAlnum cfg '#') = false := rfl
  cases before with
  | none =>
    refine parse_commented hc hw hend parts _ t hx ht.plain ?_ ?_ hnone ?_
    · have : (Option.map ('#' :: ·) none).getD [] ++ t ++ lineComments parts ++ e =
          t ++ (lineComments parts ++ e) := by simp
      rw [this]
      exact skip_none hnone
    · intro ha
      cases parts with
      | nil =>
        refine ⟨rfl, ?_⟩
        cases after with
        | none => simp [he, lineComments]
        | some c => simp [he, hash] at ha
      | cons p ps => simp [lineComments, hash] at ha
    · simp only [Option.map_none, Option.getD_none, List.nil_append, List.mem_append, not_or]
      exact ⟨⟨ht.tab, htabs⟩, htabe⟩
  | some c =>
    obtain ⟨h1, h2, h3⟩ := hbefore c rfl
    have hs : (Option.map ('#' :: ·) (some c)).getD [] ++ t ++ lineComments parts ++ e =
        '#' :: (c ++ (t ++ (lineComments parts ++ e))) := by simp
    rw [hs]
    refine parse_commented hc hw hend parts _ t hx ht.plain ?_ ?_ hnone ?_
    · have hcl := comment_line (u := t ++ (lineComments parts ++ e)) h1 (.inr (by
        cases t with
        | nil => simp at h3
        | cons a t => simpa using h3))
      show skipN ((c ++ (t ++ (lineComments parts ++ e))).length + 1) _ = _
      unfold skipN
      rw [hcl]
      dsimp only
      cases (c ++ (t ++ (lineComments parts ++ e))).length with
      | zero => rfl
      | succ n => unfold skipN; rw [hnone]
    · intro ha
      simp [hash] at ha
    · simp only [List.mem_cons, List.mem_append, not_or]
      exact ⟨by decide, h2, ht.tab, htabs, htabe⟩

example : parse (.default fun _ => false) c!"#one\na cat #two\n, a dog # three" =
    .ok (.lit c!"\na cat  \n, a dog " none) := by decide +kernel

/-! ## Templates -/

/-- **C49.**  Whatever is written unambiguously in the template language is parsed as what it stands for:
plain text, variants with any bounds, separators, weights and methods, wildcards with paths, methods and
parameters, variables with defaults and assignments, wraps, to any depth. -/
theorem parse_source (al : Char → Bool) (ps : List Piece) (h : Spec.ok .top ps = true)
    (ht : '\t' ∉ source ps) :
    parse (.default al) (source ps) = .ok (meaning ps) := by
  unfold parse parseAt
  rw [expandTabs_of_not_mem 0 _ ht, ← ParserCfg.of_default, parsers_top (Fit.default al) _ h (Nat.lt_succ_self _)]
  rfl

/-- A template with all kinds of parts: `a {@2-$$ and $$ x|+0.5::{y|}|__k_${n:m }(p={u|v})__} %{[ ... ]$$ ${q}}`
and an assignment. -/
def sampleTemplate : List Piece :=
  [.set c!" " c!"n" c!" " true true c!" " [.text c!"z"],
   .text c!" a ",
   .choice c!" " (some .cyc) (some (.atLeast c!"2", some c!" and ")) (.mk c!" " none [.text c!"x"])
     [.mk [] (some ⟨c!"0", some c!"5", c!"+"⟩) [.choice [] none none (.mk [] none [.text c!"y"]) [.mk [] none []]],
      .mk [] none [.wild none [.text c!"k_", .getD [] c!"n" [] [] [.text c!"m "]]
        [.mk c!"p" [.choice [] none none (.mk [] none [.text c!"u"]) [.mk [] none [.text c!"v"]]]]]],
   .text c!" ",
   .wrap [] [.text c!"[ ... ]"] c!" " [.get [] c!"q" []]]

example : source sampleTemplate =
    c!"${ n ?=! z} a { @2-$$ and $$ x|+0.5::{y|}|__k_${n:m }(p={u|v})__} %{[ ... ]$$ ${q}}" := by
  decide +kernel

example : Spec.ok .top sampleTemplate = true ∧ '\t' ∉ source sampleTemplate := by decide +kernel

example : parse (.default fun _ => false) (source sampleTemplate) =
    .ok (.seq [.assign c!"n" (.lit c!"z" none) true false, .lit c!" a " none,
      .variant [(.lit c!"x" none, 1), (.variant [(.lit c!"y" none, 1), (.seq [] [] none, 1)] 1 1 c!"," none, 1 / 2),
        (.wild (.inr (.seq [.lit c!"k_" none, .access c!"n" (some (.lit c!"m" none))] [] none)) none
          [(c!"p", .variant [(.lit c!"u" none, 1), (.lit c!"v" none, 1)] 1 1 c!"," none)], 1)]
        2 3 c!" and " (some .cyc),
      .lit c!" " none, .wrap (.lit c!"[ ... ]" none) (.access c!"q" none) none] [] none) := by
  decide +kernel

/-- **C49.**  What is written alike means the same: the template language is unambiguous. -/
theorem syntax_unambiguous (ps qs : List Piece) (hp : Spec.ok .top ps = true) (hq : Spec.ok .top qs = true)
    (ht : '\t' ∉ source ps) (he : source ps = source qs) :
    meaning ps = meaning qs := by
  have h1 := parse_source (fun _ => false) ps hp ht
  have h2 := parse_source (fun _ => false) qs hq (he ▸ ht)
  rw [he, h2] at h1
  exact (Except.ok.inj h1).symm

theorem meanings_truthy : ∀ (ps : List Piece), ∀ c ∈ meanings ps, c.truthy = true
  | [], c, h => by rw [Spec.meanings] at h; exact absurd h List.not_mem_nil
  | p :: ps, c, h => by
    have ih := meanings_truthy ps
    have key : ∀ q : Piece, Piece.Proper q → q.meaning.truthy = true := by
      intro q hq
      cases q with
      | text t => exact hq.elim
      | note t => exact hq.elim
      | choice w m b o more =>
        rw [Spec.Piece.meaning]
        unfold Spec.variantOf
        rcases b with _ | ⟨b, sep⟩ <;> rfl
      | _ => rw [Spec.Piece.meaning]; rfl
    cases p with
    | text t =>
      rw [meanings_text] at h
      unfold Spec.joinText at h
      split at h
      · rename_i s cs e
        rw [e] at ih
        rcases List.mem_cons.1 h with rfl | h
        · rfl
        · exact ih c (List.mem_cons_of_mem _ h)
      · rcases List.mem_cons.1 h with rfl | h
        · rfl
        · exact ih c h
    | note t => rw [meanings_note] at h; exact ih c h
    | choice _ _ _ _ _ | wild _ _ _ | get _ _ _ | getD _ _ _ _ _ | set _ _ _ _ _ _ _ | wrap _ _ _ _ =>
      rw [meanings_proper (by exact trivial)] at h
      rcases List.mem_cons.1 h with rfl | h
      · exact key _ trivial
      · exact ih c h

/-- The prompts of a text are those of the command it is parsed as, if that command is not empty. -/
theorem sampleGen_source (E : Env W) (ps : List Piece) {t : Str} {ctx : Ctx} (hm : ps = [] ∧ t = [] ∨ meanings ps ≠ [] ∧ t ≠ [])
    (hp : E.parse t = .ok (meaning ps)) :
    sampleGen E ctx (.inl t) = sampleGen E ctx (.inr (meaning ps)) := by
  unfold sampleGen
  dsimp only
  rcases hm with ⟨rfl, rfl⟩ | ⟨hm, ht⟩
  · rfl
  · have htr : (meaning ps).truthy = true := by
      have hall := meanings_truthy ps
      unfold Spec.meaning
      match hx : meanings ps with
      | [] => exact absurd hx hm
      | [c] => exact hall c (by rw [hx]; exact List.mem_cons_self)
      | c :: d :: cs => rfl
    rw [hp, htr, if_neg (by simpa using ht)]
    rfl

/-- A template with parts has a text. -/
theorem source_text {M : Spec.Marks} {al : Char → Bool} (hM : Fit M al) {ps : List Piece}
    (h : Spec.ok .top ps M = true) (hm : ps = [] ∨ meanings ps ≠ []) :
    ps = [] ∧ source ps M = [] ∨ meanings ps ≠ [] ∧ source ps M ≠ [] := by
  cases ps with
  | nil => exact .inl ⟨rfl, by rw [source]⟩
  | cons p ps =>
    refine .inr ⟨hm.resolve_left (by simp), ?_⟩
    rw [source]
    intro e
    exact source_ne_nil hM (ok_cons h).1 (List.append_eq_nil_iff.1 e).1

/-- **C60.**  Sampling the text of a template is sampling the command it stands for: the same prompts, the
same end, for every sampler, random source, context and number of prompts.  (A template that consists of
comments only stands for a command without parts, which gives no prompts, while its text gives empty
ones.) -/
theorem text_and_command_alike (E : Env W) (al : Char → Bool) (hE : E.parse = parse (.default al))
    (ps : List Piece) (h : Spec.ok .top ps = true) (ht : '\t' ∉ source ps) (hm : ps = [] ∨ meanings ps ≠ [])
    (fuel : Nat) (ctx : Ctx) (k : Nat) (w : W) :
    samplePrompts E fuel ctx (.inl (source ps)) k w = samplePrompts E fuel ctx (.inr (meaning ps)) k w := by
  unfold samplePrompts
  rw [sampleGen_source E ps (source_text (Fit.default al) h hm) (hE ▸ parse_source al ps h ht)]

/-- The exception: comments only. -/
example : Spec.ok .top [.note c!"/* a */ # b"] = true ∧ meaning [.note c!"/* a */ # b"] = .seq [] [] none ∧
    (samplePrompts { Demo.env with parse := parse (.default fun _ => false) } 30 (Demo.ctx .comb)
      (.inl c!"/* a */ # b") 5 0).1 = [[]] ∧
    (samplePrompts { Demo.env with parse := parse (.default fun _ => false) } 30 (Demo.ctx .comb)
      (.inr (.seq [] [] none)) 5 0).1 = [] := by decide +kernel

/-- **C60.**  Every prompt sampled from the text of a template belongs to the language of the command it
stands for. -/
theorem text_sampling_sound (E : Env W) (al : Char → Bool) (hE : E.parse = parse (.default al))
    (ps : List Piece) (h : Spec.ok .top ps = true) (ht : '\t' ∉ source ps) (fuel : Nat) (ctx : Ctx) (k : Nat)
    (w : W) :
    ∀ s ∈ (samplePrompts E fuel ctx (.inl (source ps)) k w).1,
      ∃ u, Spec.Lang E ctx.vars (meaning ps) u ∧ s = if E.ignoreWs then squashWhitespace u else u := by
  intro s hs
  have := sampling_sound E fuel ctx _ k w s hs
  cases this with
  | text hne hp hl =>
    rw [hE, parse_source al ps h ht] at hp
    obtain rfl := Except.ok.inj hp
    exact ⟨_, hl, rfl⟩

/-- A text sampled combinatorially with the real parser. -/
example : (samplePrompts { Demo.env with parse := parse (.default fun _ => false) } 30 (Demo.ctx .comb)
    (.inl c!"{2$$ & $$a|b} __colors__") 5 0).1 =
    [c!"a & b red", c!"a & b blue", c!"b & a red", c!"b & a blue"] := by decide +kernel

/-! ## Bounds -/

/-- **C50.**  The bounds of a parsed variant are the ones written: `n` stands for exactly `n`, `lo-hi` for the
range in either order, `-hi` begins at one and `lo-` ends at the number of options; the separator is a comma
unless there is one. -/
theorem bounds_parsed (al : Char → Bool) (w : Str) (m : Option Method) (b : Spec.Bound) (sep : Option Str)
    (o : Opt) (more : List Opt)
    (h : Spec.ok .top [.choice w m (some (b, sep)) o more] = true)
    (ht : '\t' ∉ source [.choice w m (some (b, sep)) o more]) :
    ∃ lo hi : Int, 0 ≤ lo ∧ lo ≤ hi ∧
      parse (.default al) (source [.choice w m (some (b, sep)) o more]) =
        .ok (.variant (o.meaning :: Spec.optsMeaning more) lo hi (sep.getD c!",") m) ∧
      match (generalizing := false) b with
      | .exact n => lo = Spec.natOf n ∧ hi = Spec.natOf n
      | .between x y => (lo = Spec.natOf x ∧ hi = Spec.natOf y) ∨ (lo = Spec.natOf y ∧ hi = Spec.natOf x)
      | .upTo y => (lo = 1 ∧ hi = Spec.natOf y) ∨ (lo = 0 ∧ hi = 1 ∧ Spec.natOf y = 0)
      | .atLeast x => (lo = Spec.natOf x ∧ hi = more.length + 1) ∨
          (lo = more.length + 1 ∧ hi = Spec.natOf x) := by
  have hl : ∀ l : List Opt, (Spec.optsMeaning l).length = l.length := by
    intro l
    induction l with
    | nil => rfl
    | cons o l ih => rw [Spec.optsMeaning, List.length_cons, List.length_cons, ih]
  let e := b.ends (o.meaning :: Spec.optsMeaning more).length
  refine ⟨(min e.1 e.2 : Nat), (max e.1 e.2 : Nat), Int.natCast_nonneg _, Int.ofNat_le.2 (by omega), ?_, ?_⟩
  · rw [parse_source al _ h ht]
    unfold Spec.meaning
    rw [meanings_proper (p := .choice ..) trivial, Spec.meanings]
    show Except.ok (Piece.meaning _) = _
    rw [Piece.meaning]
    unfold Spec.variantOf
    rfl
  · cases b with
    | exact n => simp [e, Spec.Bound.ends]
    | between x y => simp only [e, Spec.Bound.ends]; omega
    | upTo y => simp only [e, Spec.Bound.ends]; omega
    | atLeast x => simp only [e, Spec.Bound.ends, List.length_cons, hl]; omega

example : parse (.default fun _ => false) c!"{3-1$$; $$a|b|c|d}" =
    .ok (.variant ([c!"a", c!"b", c!"c", c!"d"].map fun t => (.lit t none, 1)) 1 3 c!"; " none) := by
  decide +kernel

/-- Without a bound exactly one option is picked. -/
theorem no_bounds_parsed (al : Char → Bool) (w : Str) (m : Option Method) (o : Opt) (more : List Opt)
    (h : Spec.ok .top [.choice w m none o more] = true)
    (ht : '\t' ∉ source [.choice w m none o more]) :
    parse (.default al) (source [.choice w m none o more]) =
      .ok (.variant (o.meaning :: Spec.optsMeaning more) 1 1 c!"," m) := by
  rw [parse_source al _ h ht]
  unfold Spec.meaning
  rw [meanings_proper (p := .choice ..) trivial, Spec.meanings]
  show Except.ok (Piece.meaning _) = _
  rw [Piece.meaning]
  rfl

example : parse (.default fun _ => false) c!"{!a|2::b}" =
    .ok (.variant [(.lit c!"a" none, 1), (.lit c!"b" none, 2)] 1 1 c!"," (some .comb)) := by decide +kernel

/-! ## Any text -/

/-- **C57.**  Parsing ends for every text and all delimiters: every depth of nesting beyond the length of the
text gives the same result, and the result is a command, a `ParseException` or an `AttributeError`. -/
theorem parsing_ends (cfg : ParserCfg) (hc : cfg.Usable) (s : Str) :
    (∀ depth, (expandTabs 0 s).length < depth → parseAt cfg depth s = some (parse cfg s)) ∧
    ((∃ c, parse cfg s = .ok c) ∨ parse cfg s = .error .parse ∨ parse cfg s = .error .attr) := by
  have key : ∀ depth, (expandTabs 0 s).length < depth → parseAt cfg depth s = some (parse cfg s) := by
    intro depth hd
    obtain ⟨h1, h2⟩ := (parsers_same hc ((expandTabs 0 s).length + 1) depth ((expandTabs 0 s).length + 1) hd
      (Nat.le_refl _) (expandTabs 0 s) (Nat.lt_succ_self _)).2
    unfold parse parseAt
    rw [h1] at h2 ⊢
    cases hx : (parsers cfg ((expandTabs 0 s).length + 1)).2 (expandTabs 0 s) with
    | fuel => rw [hx] at h2; exact absurd h2 (by simp [P.Within])
    | ok c r => rfl
    | fail => rfl
    | err e => rfl
  refine ⟨key, ?_⟩
  have h1 := key _ (Nat.lt_succ_self _)
  have h2 := (parsers_attr cfg ((expandTabs 0 s).length + 1) (expandTabs 0 s)).2
  unfold parseAt at h1
  cases hx : (parsers cfg ((expandTabs 0 s).length + 1)).2 (expandTabs 0 s) with
  | fuel => rw [hx] at h1; cases h1
  | ok c r => rw [hx] at h1; exact .inl ⟨c, (Option.some.inj h1).symm⟩
  | fail => rw [hx] at h1; exact .inr (.inl (Option.some.inj h1).symm)
  | err e =>
    rw [hx] at h1 h2
    rw [h2 e rfl] at h1
    exact .inr (.inr (Option.some.inj h1).symm)

/-- All three results occur. -/
example : parse (.default fun _ => false) c!"{{a|b}|c" = .error .parse ∧
    parse (.default fun _ => false) c!"50% off" = .error .parse ∧
    parse (.default fun _ => false) c!"__${a:{x|y}}__" = .error .attr ∧
    parse (.default fun _ => false) c!"{{a|b}|c}" = .ok (.variant
      [(.variant [(.lit c!"a" none, 1), (.lit c!"b" none, 1)] 1 1 c!"," none, 1), (.lit c!"c" none, 1)]
      1 1 c!"," none) := by decide +kernel

/-- **C58.**  Whatever the text and the delimiters: literals are not empty, variants have options, bounds in
order and a separator, sequences are flat and do not have exactly one part, assignments occur only at the
top, the parameters of a wildcard have different names, and variables in a path have a text as default
(`Spec.Shaped`). -/
theorem parsed_shape (cfg : ParserCfg) (s : Str) (c : Cmd) (h : parse cfg s = .ok c) : Spec.Shaped true c :=
  parse_shaped h

/-- A consequence: no parsed variant is without options or has its bounds out of order. -/
theorem parsed_variant (cfg : ParserCfg) (s : Str) (opts : List (Cmd × Rat)) (lo hi : Int) (sep : Str)
    (m : Option Method) (h : parse cfg s = .ok (.variant opts lo hi sep m)) :
    opts ≠ [] ∧ 0 ≤ lo ∧ lo ≤ hi := by
  cases parsed_shape cfg s _ h with
  | variant h1 h2 h3 h4 h5 => exact ⟨h1, h3, h4⟩

example : Spec.Shaped true (.seq [.assign c!"x" (.lit c!"1" none) false true, .lit c!" b" none] [] none) :=
  parsed_shape (.default fun _ => false) c!"${x=1} b" _ (by decide +kernel)

theorem expandTabs_no_tab : ∀ (n : Nat) (s : Str), '\t' ∉ expandTabs n s
  | _, [] => by simp [expandTabs]
  | n, c :: cs => by
    unfold expandTabs
    split
    · simp only [List.mem_append, List.mem_replicate, not_or]
      exact ⟨by simp, expandTabs_no_tab 0 cs⟩
    · rename_i h
      split <;> simp only [List.mem_cons, not_or] <;> exact ⟨Ne.symm h, expandTabs_no_tab _ cs⟩

/-- **C61.**  A tab is read as the spaces up to the next column that is a multiple of eight. -/
theorem tabs_are_spaces (cfg : ParserCfg) (s : Str) : parse cfg s = parse cfg (expandTabs 0 s) := by
  unfold parse parseAt
  rw [expandTabs_of_not_mem 0 (expandTabs 0 s) (expandTabs_no_tab 0 s)]

/-- The first tab stands for the spaces up to the next multiple of eight. -/
theorem first_tab (a b : Str) (ha : '\t' ∉ a) (hn : '\n' ∉ a ∧ '\r' ∉ a) :
    expandTabs 0 (a ++ '\t' :: b) = a ++ List.replicate (8 - a.length % 8) ' ' ++ expandTabs 0 b := by
  have key : ∀ (a : Str) (n : Nat), '\t' ∉ a → '\n' ∉ a ∧ '\r' ∉ a →
      expandTabs n (a ++ '\t' :: b) = a ++ List.replicate (8 - (n + a.length) % 8) ' ' ++ expandTabs 0 b := by
    intro a
    induction a with
    | nil => intro n _ _; simp [expandTabs]
    | cons c a ih =>
      intro n h1 h2
      simp only [List.mem_cons, not_or] at h1 h2
      rw [List.cons_append, expandTabs, if_neg (Ne.symm h1.1), if_neg, ih _ h1.2 ⟨h2.1.2, h2.2.2⟩]
      · simp only [List.length_cons, List.cons_append]
        rw [show n + 1 + a.length = n + (a.length + 1) by omega]
      · rintro (h | h)
        · exact h2.1.1 h.symm
        · exact h2.2.1 h.symm
  simpa using key a 0 ha hn

example : parse (.default fun _ => false) c!"a b\tc" = .ok (.lit c!"a b     c" none) := by decide +kernel

/-! ## The cache of parsers -/

theorem alnum_parse {cfg : ParserCfg} {s : Str} (h : (!s.isEmpty && s.all cfg.isAlnum) = true) :
    parse cfg s = .ok (.lit s none) := by
  have ht : '\t' ∉ s := by
    intro hm
    simp only [Bool.and_eq_true] at h
    have := List.all_eq_true.1 h.2 _ hm
    have h2 : cfg.isAlnum '\t' = false := rfl
    rw [h2] at this
    cases this
  unfold parse parseAt
  rw [expandTabs_of_not_mem 0 s ht]
  show Option.getD (match parseTok cfg _ _ s with
    | .ok c _ => _ | .fail => _ | .err e => _ | .fuel => _) _ = _
  unfold parseTok
  rw [if_pos h]
  rfl

/-- **C62.**  The cache of parsers is invisible: in every history of calls with any configurations, and of
configurations being dropped, each call gives the result of a fresh parser for its own configuration. -/
theorem parser_cache_transparent (al : Char → Bool) (events : List CacheEvent)
    (hal : ∀ cfg s, CacheEvent.parse cfg s ∈ events → cfg.alnum = al) :
    cacheRun [] events = events.filterMap fun
      | .parse cfg s => some (parse cfg s)
      | .collect _ => none := by
  have key : ∀ (cache : ParserCache), (∀ e ∈ cache, e.1.alnum = al ∧ e.2 = parse e.1) →
      cacheRun cache events = events.filterMap fun
        | .parse cfg s => some (parse cfg s)
        | .collect _ => none := by
    induction events with
    | nil => intro _ _; rfl
    | cons e es ih =>
      have ih := ih fun cfg s h => hal cfg s (List.mem_cons_of_mem _ h)
      intro cache hcache
      cases e with
      | collect gone =>
        rw [cacheRun, ih _ fun e he => hcache e (List.mem_filter.1 he).1]
        rfl
      | parse cfg s =>
        have hcfg := hal cfg s List.mem_cons_self
        have hget : (getCachedParser cache cfg).1 = parse cfg ∧
            ∀ e ∈ (getCachedParser cache cfg).2, e.1.alnum = al ∧ e.2 = parse e.1 := by
          unfold getCachedParser
          split
          · rename_i e he
            have h1 := List.find?_some he
            have h2 := hcache e (List.mem_of_find?_eq_some he)
            refine ⟨?_, hcache⟩
            rw [h2.2]
            simp only [ParserCfg.sameAs, Bool.and_eq_true, beq_iff_eq] at h1
            obtain ⟨⟨⟨⟨⟨⟨h3, h4⟩, h5⟩, h6⟩, h7⟩, h8⟩, h9⟩ := h1
            have h10 := h2.1.trans hcfg.symm
            obtain ⟨e1, e2⟩ := e
            cases e1
            cases cfg
            simp_all
          · refine ⟨rfl, fun e he => ?_⟩
            rcases List.mem_cons.1 he with rfl | he
            · exact ⟨hcfg, rfl⟩
            · exact hcache e he
        have hcp : (cachedParse cache cfg s).1 = parse cfg s ∧
            ∀ e ∈ (cachedParse cache cfg s).2, e.1.alnum = al ∧ e.2 = parse e.1 := by
          unfold cachedParse
          split
          · rename_i h
            exact ⟨(alnum_parse h).symm, hcache⟩
          · exact ⟨congrFun hget.1 s, hget.2⟩
        rw [cacheRun, hcp.1, ih _ hcp.2]
        rfl
  exact key [] (by simp)

/-- Two configurations used in turn. -/
example :
    let a := ParserCfg.default fun _ => false
    let b := { a with variantStart := c!"<", variantEnd := c!">" }
    cacheRun [] [.parse a c!"{x|y}", .parse b c!"<x|y>", .collect fun _ => true, .parse a c!"<x>"] =
      [.ok (.variant [(.lit c!"x" none, 1), (.lit c!"y" none, 1)] 1 1 c!"," none),
       .ok (.variant [(.lit c!"x" none, 1), (.lit c!"y" none, 1)] 1 1 c!"," none),
       .ok (.lit c!"<x>" none)] := by decide +kernel

end Verif.Props
