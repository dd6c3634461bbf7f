import Verif.Spec.Comments
import Verif.Props.Parser
import Verif.Props.Marks
/-!
# C67: comments

Comments are `# …` and `// …` to the end of the line and `/* … */`.  `Spec.Reader` reads comments character
by character, `Spec.comments` are texts that consist of comments.
-/

namespace Verif.Props
open Verif.Spec (Piece Opt Param Marks source meaning meanings stripped)
variable {W : Type}

/-! ## Before a template -/

theorem many_more {α : Type} {stop : Str → Bool} {p : Str → P α} : ∀ {n : Nat} {s : Str} (m : Nat),
    many stop p n s ≠ .fuel → n ≤ m → many stop p m s = many stop p n s
  | 0, _, _, h, _ => absurd rfl h
  | n + 1, s, 0, _, hm => absurd hm (by omega)
  | n + 1, s, m + 1, h, hm => by
    unfold many at h ⊢
    split
    · rfl
    · rename_i hst
      rw [if_neg hst] at h
      cases hp : p s with
      | ok a r =>
        rw [hp] at h
        dsimp only at h ⊢
        have : many stop p n r ≠ .fuel := by
          intro e
          rw [e] at h
          exact h rfl
        rw [many_more m this (by omega)]
      | fail => rfl
      | err e => rfl
      | fuel => rfl

theorem default_usable (al : Char → Bool) : (ParserCfg.default al).Usable :=
  ⟨by simp [ParserCfg.default], by simp [ParserCfg.default], by simp [ParserCfg.default], by simp [ParserCfg.default]⟩

theorem promptTok_skip {cfg : ParserCfg} {vp pv : Str → P Cmd} {c s : Str} (h : skip (c ++ s) = skip s)
    (hf : promptTok cfg vp pv s ≠ .fuel) : promptTok cfg vp pv (c ++ s) = promptTok cfg vp pv s := by
  unfold promptTok at hf ⊢
  rw [h, many_more (n := s.length + 1) ((c ++ s).length + 1) ?_ (by simp)]
  intro e
  rw [e] at hf
  exact hf rfl

theorem comments_front {c : Str} (h : Spec.comments c = true) (al : Char → Bool) (s : Str) :
    (c ++ s).all (ParserCfg.default al).isAlnum = false := by
  cases c with
  | nil => exact absurd h (by decide)
  | cons d c =>
    have hd : Spec.blank d = true ∨ d = '#' ∨ d = '/' := by
      simp only [Spec.comments, Spec.openEnded, Spec.Reader.read, Spec.Reader.step] at h
      by_cases h1 : Spec.blank d = true
      · exact .inl h1
      · by_cases h2 : d = '#'
        · exact .inr (.inl h2)
        · by_cases h3 : d = '/'
          · exact .inr (.inr h3)
          · simp [h1, h2, h3] at h
    have : (ParserCfg.default al).isAlnum d = false := by
      rcases hd with h | rfl | rfl
      · simp only [Spec.blank, List.contains_iff_mem, List.mem_cons, List.not_mem_nil, or_false] at h
        rcases h with rfl | rfl | rfl | rfl <;> rfl
      · rfl
      · rfl
    simp [this]

/-- **C67.**  Whatever the template is, comments before it do not matter: it is parsed alike, and fails alike.
A line comment has to end, with its line or with the template. -/
theorem comments_before (al : Char → Bool) (c s : Str) (hc : Spec.comments c = true)
    (hl : Spec.openEnded c = true → s = [] ∨ s.head? = some '\n') (ht : '\t' ∉ c ++ s) :
    parse (.default al) (c ++ s) = parse (.default al) s := by
  have hts : '\t' ∉ s := fun h => ht (List.mem_append_right _ h)
  by_cases ha : (!s.isEmpty && s.all (ParserCfg.default al).isAlnum) = true
  · simp only [Bool.and_eq_true, Bool.not_eq_true', List.isEmpty_eq_false_iff] at ha
    have hno : ∀ d ∈ s, d ∉ c!" \t\r\n#{$%_/" := by
      intro d hd hm
      have := List.all_eq_true.1 ha.2 d hd
      simp only [List.mem_cons, List.not_mem_nil, or_false] at hm
      rcases hm with rfl | rfl | rfl | rfl | rfl | rfl | rfl | rfl | rfl | rfl <;> exact Bool.false_ne_true this
    obtain ⟨d, r, rfl⟩ := List.exists_cons_of_ne_nil ha.1
    have hd := hno d List.mem_cons_self
    have hopen : Spec.openEnded c = false := by
      rw [Bool.eq_false_iff]
      intro h
      rcases hl h with h | h
      · cases h
      · simp only [List.head?_cons, Option.some.injEq] at h
        subst h
        exact hd (by decide)
    have htext : Piece.ok .top (.text (d :: r)) = true := by
      rw [Piece.ok]
      unfold Spec.textOk Spec.plain
      simp only [Bool.and_eq_true, Bool.not_eq_true', Bool.and_true]
      refine ⟨⟨⟨by simp, ?_⟩, ?_⟩, ?_⟩
      · rw [List.all_eq_true]
        intro x hx
        have := hno x hx
        simp only [Bool.not_eq_true', Bool.eq_false_iff, ne_eq, List.contains_iff_mem, Spec.Place.special]
        intro h
        simp only [List.mem_cons, List.not_mem_nil, or_false] at h this
        simp_all
      · rw [Bool.eq_false_iff]
        intro h
        rw [hasSub_iff] at h
        exact hno '_' (h.subset (by decide)) (by decide)
      · have hb : Spec.blank d = false := by
          rw [Bool.eq_false_iff]
          intro h
          refine hd ?_
          simp only [Spec.blank, List.contains_iff_mem, List.mem_cons, List.not_mem_nil, or_false] at h
          rcases h with rfl | rfl | rfl | rfl <;> decide
        unfold Spec.marked
        rw [List.dropWhile_cons, hb]
        split
        · rename_i e
          simp only [Bool.false_eq_true, if_false, List.cons.injEq] at e
          exact absurd (e.1 ▸ hd) (by decide)
        · rename_i e
          simp only [Bool.false_eq_true, if_false, List.cons.injEq] at e
          exact absurd (e.1 ▸ hd) (by decide)
        · rename_i e
          simp only [Bool.false_eq_true, if_false, List.cons.injEq] at e
          exact absurd (e.1 ▸ hd) (by decide)
        · rfl
    have h1 := parse_source al [.note c, .text (d :: r)]
      (by rw [Spec.ok, Spec.ok, htext]; simp [Spec.ok, Piece.ok, hc, Spec.follows, hopen]) (by simpa [source, Piece.source] using ht)
    have h2 := parse_source al [.text (d :: r)] (by simp [Spec.ok, htext, Spec.follows])
      (by simpa [source, Piece.source] using hts)
    simp only [source, Piece.source, List.append_nil] at h1 h2
    rw [h1, h2]
    unfold Spec.meaning
    rw [meanings_note]
  · have key := (parsing_ends (.default al) (default_usable al) s).1 ((c ++ s).length + 1)
      (by rw [expandTabs_of_not_mem 0 _ hts, List.length_append]; omega)
    have hsk : skip (c ++ s) = skip s := by
      unfold Spec.comments Spec.openEnded at hc
      simp only [Bool.or_eq_true, beq_iff_eq] at hc
      rcases hc with h | h
      · exact skip_note h (.inl rfl) (fun h => by cases h)
      · exact skip_note h (.inr rfl) (fun _ => hl (by unfold Spec.openEnded; rw [h]; rfl))
    have hx : (parsers (.default al) ((c ++ s).length + 1)).2 (c ++ s) =
        (parsers (.default al) ((c ++ s).length + 1)).2 s := by
      show parseTok _ _ _ _ = parseTok _ _ _ _
      unfold parseTok
      rw [if_neg ha, if_neg (by rw [comments_front hc]; simp)]
      refine promptTok_skip hsk ?_
      intro e
      unfold parseAt at key
      rw [expandTabs_of_not_mem 0 _ hts] at key
      have : (parsers (.default al) ((c ++ s).length + 1)).2 s = .fuel := by
        show parseTok _ _ _ _ = _
        unfold parseTok
        rw [if_neg ha]
        exact e
      rw [this] at key
      cases key
    have : parse (.default al) (c ++ s) = (parseAt (.default al) ((c ++ s).length + 1) s).getD (.error .runtime) := by
      unfold parse parseAt
      rw [expandTabs_of_not_mem 0 _ ht, expandTabs_of_not_mem 0 _ hts, hx]
    rw [this, key]
    rfl

example : Spec.comments c!" /* {a| */ // b\n# c" = true ∧ Spec.openEnded c!" /* {a| */ // b\n# c" = true ∧
    parse (.default fun _ => false) c!" /* {a| */ // b\n# c\n{x|y}" =
      .ok (.seq [.lit c!"\n" none, .variant [(.lit c!"x" none, 1), (.lit c!"y" none, 1)] 1 1 c!"," none] [] none) ∧
    parse (.default fun _ => false) c!"\n{x|y}" =
      .ok (.seq [.lit c!"\n" none, .variant [(.lit c!"x" none, 1), (.lit c!"y" none, 1)] 1 1 c!"," none] [] none) ∧
    parse (.default fun _ => false) c!"/* c */{x|y" = .error .parse ∧
    parse (.default fun _ => false) c!"{x|y" = .error .parse := by decide +kernel

/-! ## Between and inside the parts of a template -/

mutual
theorem stripped_piece {M : Marks} : ∀ {l : Spec.Place} {p : Piece}, p.ok l M = true → p.stripped.meaning = p.meaning
  | _, .text t, _ => by rw [Piece.stripped]
  | _, .note t, _ => by rw [Piece.stripped]
  | _, .choice w m b o more, h => by
    rw [Piece.ok] at h
    simp only [Bool.and_eq_true] at h
    rw [Piece.stripped, Piece.meaning, Piece.meaning, stripped_opt h.1.1.2, stripped_opts h.1.2]
  | l, .wild m path ps, h => by
    rw [Piece.ok] at h
    simp only [Bool.and_eq_true] at h
    rw [Piece.stripped, Piece.meaning, Piece.meaning, stripped_path h.1.1.1.2, stripped_params h.2]
  | _, .get _ n _, _ => by rw [Piece.stripped, Piece.meaning, Piece.meaning]
  | l, .getD _ n _ _ d, h => by
    rw [Piece.ok] at h
    simp only [Bool.and_eq_true] at h
    rw [Piece.stripped, Piece.meaning, Piece.meaning, stripped_meanings h.1.1.2]
  | l, .set _ n _ keep now _ v, h => by
    rw [Piece.ok] at h
    simp only [Bool.and_eq_true] at h
    rw [Piece.stripped, Piece.meaning, Piece.meaning, stripped_meanings h.1.1.2]
  | l, .wrap _ a _ b, h => by
    rw [Piece.ok] at h
    simp only [Bool.and_eq_true] at h
    rw [Piece.stripped, Piece.meaning, Piece.meaning, stripped_meanings h.1.1.1.2, stripped_meanings h.1.1.2]
theorem stripped_meanings {M : Marks} : ∀ {l : Spec.Place} {ps : List Piece}, Spec.ok l ps M = true →
    meanings (stripped ps) = meanings ps
  | _, [], _ => by rw [stripped]
  | _, .note t :: ps, h => by
    rw [stripped, meanings_note, stripped_meanings (ok_cons h).2.1]
  | _, .text t :: ps, h => by
    rw [stripped, Piece.stripped, meanings_text, meanings_text, stripped_meanings (ok_cons h).2.1]
    all_goals simp
  | _, .choice w m b o more :: ps, h => by
    have := stripped_piece (ok_cons h).1
    rw [stripped, meanings_proper (by rw [Piece.stripped]; exact trivial), meanings_proper (by exact trivial), this,
      stripped_meanings (ok_cons h).2.1]
    all_goals simp
  | _, .wild m path pp :: ps, h => by
    have := stripped_piece (ok_cons h).1
    rw [stripped, meanings_proper (by rw [Piece.stripped]; exact trivial), meanings_proper (by exact trivial), this,
      stripped_meanings (ok_cons h).2.1]
    all_goals simp
  | _, .get _ n _ :: ps, h => by
    have := stripped_piece (ok_cons h).1
    rw [stripped, meanings_proper (by rw [Piece.stripped]; exact trivial), meanings_proper (by exact trivial), this,
      stripped_meanings (ok_cons h).2.1]
    all_goals simp
  | _, .getD _ n _ _ d :: ps, h => by
    have := stripped_piece (ok_cons h).1
    rw [stripped, meanings_proper (by rw [Piece.stripped]; exact trivial), meanings_proper (by exact trivial), this,
      stripped_meanings (ok_cons h).2.1]
    all_goals simp
  | _, .set _ n _ keep now _ v :: ps, h => by
    have := stripped_piece (ok_cons h).1
    rw [stripped, meanings_proper (by rw [Piece.stripped]; exact trivial), meanings_proper (by exact trivial), this,
      stripped_meanings (ok_cons h).2.1]
    all_goals simp
  | _, .wrap _ a _ b :: ps, h => by
    have := stripped_piece (ok_cons h).1
    rw [stripped, meanings_proper (by rw [Piece.stripped]; exact trivial), meanings_proper (by exact trivial), this,
      stripped_meanings (ok_cons h).2.1]
    all_goals simp
theorem stripped_path {M : Marks} : ∀ {ps : List Piece}, Spec.ok .path ps M = true →
    Spec.pathMeaning (stripped ps) = Spec.pathMeaning ps
  | [], _ => by rw [stripped]
  | p :: ps, h => by
    have hp := (ok_cons h).1
    have ih := stripped_path (ok_cons h).2.1
    have hm := stripped_piece hp
    cases p with
    | note t => rw [Piece.ok] at hp; simp at hp
    | getD w1 n w2 w3 d =>
      rw [stripped, Piece.stripped, Spec.pathMeaning, Spec.pathMeaning, ih]
      rw [Piece.ok] at hp
      simp only [Bool.and_eq_true] at hp
      have hs : Spec.simple d = true := by simpa using hp.2
      have : Spec.pathDefault n (stripped d) = Spec.pathDefault n d := by
        match d, hs with
        | [], _ => rw [stripped]
        | [.text t], _ => rw [stripped, Piece.stripped, stripped]; simp
      rw [this]
      all_goals simp
    | get w1 n w2 => rw [stripped, Piece.stripped, Spec.pathMeaning, Spec.pathMeaning, ih]; all_goals simp
    | text t => rw [stripped, Piece.stripped, Spec.pathMeaning, Spec.pathMeaning, ih]; all_goals simp
    | choice w m b o more =>
      rw [Piece.stripped] at hm
      rw [stripped, Piece.stripped, Spec.pathMeaning, Spec.pathMeaning, ih, hm]; all_goals simp
    | wild m path ps => rw [Piece.ok] at hp; simp at hp
    | set w1 n w2 k a w3 v => rw [Piece.ok] at hp; simp at hp
    | wrap w1 a w2 b => rw [Piece.ok] at hp; simp at hp
theorem stripped_opt {M : Marks} : ∀ {o : Opt}, o.ok M = true → o.stripped.meaning = o.meaning
  | .mk w none v, h => by
    rw [Opt.ok] at h
    simp only [Bool.and_eq_true] at h
    rw [Opt.stripped, Opt.meaning, Opt.meaning, stripped_meanings h.1.1.2]
  | .mk w (some n) v, h => by
    rw [Opt.ok] at h
    simp only [Bool.and_eq_true] at h
    rw [Opt.stripped, Opt.meaning, Opt.meaning, stripped_meanings h.2]
theorem stripped_opts {M : Marks} : ∀ {os : List Opt}, Spec.optsOk os M = true →
    Spec.optsMeaning (Spec.optsStripped os) = Spec.optsMeaning os
  | [], _ => by rw [Spec.optsStripped]
  | o :: os, h => by
    rw [Spec.optsOk] at h
    simp only [Bool.and_eq_true] at h
    rw [Spec.optsStripped, Spec.optsMeaning, Spec.optsMeaning, stripped_opt h.1, stripped_opts h.2]
theorem stripped_params {M : Marks} : ∀ {ps : List Param}, Spec.paramsOk ps M = true →
    Spec.paramsMeaning (Spec.paramsStripped ps) = Spec.paramsMeaning ps
  | [], _ => by rw [Spec.paramsStripped]
  | .mk n v :: ps, h => by
    rw [Spec.paramsOk] at h
    simp only [Bool.and_eq_true] at h
    rw [Spec.paramsStripped, Spec.paramsMeaning, Spec.paramsMeaning, stripped_meanings h.1.1.1, stripped_params h.2]
end

/-- **C67.**  Templates that differ only in comments, and in the optional white space inside their parts, are
parsed alike. -/
theorem comments_parsed_alike (M : Marks) (al : Char → Bool) (hM : M.usable al = true) (ps qs : List Piece) (hp : Spec.ok .top ps M = true)
    (hq : Spec.ok .top qs M = true) (htp : '\t' ∉ source ps M) (htq : '\t' ∉ source qs M)
    (h : stripped ps = stripped qs) :
    parse (.of M al) (source ps M) = parse (.of M al) (source qs M) := by
  rw [parse_source_marks M al hM ps hp htp, parse_source_marks M al hM qs hq htq]
  unfold Spec.meaning
  rw [← stripped_meanings hp, ← stripped_meanings hq, h]

/-- **C67.**  They give the same prompts, and end in the same way, for every sampler, random source, context
and number of prompts. -/
theorem comments_sampled_alike (E : Env W) (M : Marks) (al : Char → Bool) (hM : M.usable al = true) (hE : E.parse = parse (.of M al))
    (ps qs : List Piece) (hp : Spec.ok .top ps M = true) (hq : Spec.ok .top qs M = true)
    (htp : '\t' ∉ source ps M) (htq : '\t' ∉ source qs M) (h : stripped ps = stripped qs)
    (hne : ps ≠ []) (hnq : qs ≠ []) (fuel : Nat) (ctx : Ctx) (k : Nat) (w : W) :
    samplePrompts E fuel ctx (.inl (source ps M)) k w = samplePrompts E fuel ctx (.inl (source qs M)) k w := by
  have ne : ∀ {rs : List Piece}, Spec.ok .top rs M = true → rs ≠ [] → (source rs M).isEmpty = false := by
    intro rs hr hne
    cases rs with
    | nil => exact absurd rfl hne
    | cons r rs =>
      rw [source]
      cases e : r.source M with
      | nil => exact absurd e (source_ne_nil (Fit.of hM) (ok_cons hr).1)
      | cons c t => rfl
  unfold samplePrompts sampleGen
  dsimp only
  rw [ne hp hne, ne hq hnq, hE, comments_parsed_alike M al hM ps qs hp hq htp htq h]

/-- **C67.**  Text before and after a comment is one literal, with a space in place of the comment. -/
theorem comment_between_texts (M : Marks) (al : Char → Bool) (hM : M.usable al = true) (t c u : Str)
    (h : Spec.ok .top [.text t, .note c, .text u] M = true) (ht : '\t' ∉ t ++ (c ++ u)) :
    parse (.of M al) (t ++ (c ++ u)) = .ok (.lit (t ++ c!" " ++ u) none) := by
  have := parse_source_marks M al hM [.text t, .note c, .text u] h (by simpa [source, Piece.source] using ht)
  simpa [source, Piece.source, Spec.meaning, meanings_text, meanings_note, Spec.meanings, Spec.joinText,
    Spec.together] using this

/-- The template `sampleTemplate` with comments in many places. -/
def sampleCommented : List Piece :=
  [.note c!"# first\n/* and */",
   .set [] c!"n" c!" # name\n" true true
     c!"// value\n" [.text c!"z"],
   .note c!"/* a { comment | } */",
   .text c!" a ",
   .note c!"# a line {",
   .text c!"\nb ",
   .choice c!" /* which */" (some .cyc) (some (.atLeast c!"2", some c!" and "))
     (.mk c!"// one\n " none [.text c!"x", .note c!"# two\n/* */"])
     [.mk c!"/**/" (some { whole := c!"0", decimals := some c!"5" }) [.choice [] none none (.mk [] none [.text c!"y"]) [.mk [] none []]],
      .mk [] none [.wild none [.text c!"k_", .getD c!"#n\n" c!"n" [] [] [.text c!"m "]]
        [.mk c!"p" [.choice [] none none (.mk [] none [.text c!"u"]) [.mk [] none [.text c!"v"]]]]]],
   .note c!" // the end, ${"]

example : source sampleCommented =
    c!"# first\n/* and */${n # name\n?=!// value\nz}/* a { comment | } */ a # a line {\nb { /* which */@2-$$ and $$// one\n x# two\n/* */|/**/0.5::{y|}|__k_${#n\nn:m }(p={u|v})__} // the end, ${" := by
  decide +kernel

example : Spec.ok .top sampleCommented = true ∧ '\t' ∉ source sampleCommented := by decide +kernel

/-- The same template without its comments, except that there has to be one between two texts. -/
example : parse (.default fun _ => false) (source sampleCommented) = parse (.default fun _ => false)
    c!"${n?=!z} a #\nb {@2-$$ and $$x|0.5::{y|}|__k_${n:m }(p={u|v})__}" := by
  refine comments_parsed_alike {} _ (default_marks_usable _) sampleCommented
    [.set [] c!"n" [] true true [] [.text c!"z"], .text c!" a ", .note c!"#", .text c!"\nb ",
     .choice [] (some .cyc) (some (.atLeast c!"2", some c!" and ")) (.mk [] none [.text c!"x"])
     [.mk [] (some { whole := c!"0", decimals := some c!"5" }) [.choice [] none none (.mk [] none [.text c!"y"]) [.mk [] none []]],
      .mk [] none [.wild none [.text c!"k_", .getD [] c!"n" [] [] [.text c!"m "]]
        [.mk c!"p" [.choice [] none none (.mk [] none [.text c!"u"]) [.mk [] none [.text c!"v"]]]]]]]
    (by decide +kernel) (by decide +kernel) (by decide +kernel) (by decide +kernel) ?_
  simp [sampleCommented, stripped, Piece.stripped, Opt.stripped, Spec.optsStripped, Spec.paramsStripped]

example : Spec.ok .top [.text c!"a cat ", .note c!"# or\n/* a dog */", .text c!" sleeps"] = true ∧
    parse (.default fun _ => false) c!"a cat # or\n/* a dog */ sleeps" = .ok (.lit c!"a cat   sleeps" none) := by
  decide +kernel

end Verif.Props
