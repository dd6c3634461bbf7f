import Verif.Proofs.ParserShape
import Verif.Proofs.ParserText
import Verif.Spec.Hangs
/-! # The names of wildcards in parsed templates, and what they are parsed as -/

namespace Verif

/-! ## Rests of texts -/

theorem closeComment_suffix : ∀ {s r : Str}, closeComment s = some r → r <:+ s
  | [], _, h => by simp [closeComment] at h
  | c :: cs, r, h => by
    unfold closeComment at h
    split at h
    · simp only [Option.some.injEq] at h
      subst h
      exact (List.suffix_cons _ _).trans (List.suffix_cons _ _)
    · exact (closeComment_suffix h).trans (List.suffix_cons _ _)

theorem comment_suffix {s r : Str} (h : comment s = some r) : r <:+ s := by
  have hd : s.dropWhile isWs <:+ s := List.dropWhile_suffix _
  unfold comment at h
  split at h
  · rename_i e
    simp only [Option.some.injEq] at h
    subst h
    exact (List.dropWhile_suffix _).trans ((List.suffix_cons _ _).trans (e ▸ hd))
  · rename_i e
    simp only [Option.some.injEq] at h
    subst h
    exact (List.dropWhile_suffix _).trans ((List.suffix_cons _ _).trans ((List.suffix_cons _ _).trans (e ▸ hd)))
  · rename_i e
    exact (closeComment_suffix h).trans ((List.suffix_cons _ _).trans ((List.suffix_cons _ _).trans (e ▸ hd)))
  · cases h

theorem skipN_suffix : ∀ (n : Nat) (s : Str), skipN n s <:+ s
  | 0, _ => List.suffix_rfl
  | n + 1, s => by
    unfold skipN
    split
    · exact List.suffix_rfl
    · rename_i r h
      exact (skipN_suffix n r).trans (comment_suffix h)

theorem skip_suffix (s : Str) : skip s <:+ s := skipN_suffix _ _

theorem litRun_append (wrap : Str) (ex : Char → Bool) : ∀ s : Str,
    (litRun wrap ex s).1 ++ (litRun wrap ex s).2 = s
  | [] => rfl
  | c :: cs => by
    unfold litRun
    split
    · rfl
    · simpa using litRun_append wrap ex cs

theorem litPieces_suffix (wrap : Str) (ex : Char → Bool) : ∀ (n : Nat) (s : Str), (litPieces wrap ex n s).2 <:+ s
  | 0, _ => List.suffix_rfl
  | n + 1, s => by
    unfold litPieces
    dsimp only
    split
    · exact List.suffix_rfl
    · refine (litPieces_suffix wrap ex n _).trans (List.IsSuffix.trans ?_ (skip_suffix s))
      exact ⟨_, litRun_append wrap ex (skip s)⟩

/-! ## Texts without marks -/

/-- No special character and no delimiter of wildcards. -/
def Markless (cfg : ParserCfg) (s : Str) : Prop := (∀ c ∈ s, cfg.special c = false) ∧ ¬ cfg.wildcardWrap <:+: s

theorem Markless.suffix {cfg : ParserCfg} {s r : Str} (h : Markless cfg s) (hr : r <:+ s) : Markless cfg r :=
  ⟨fun c hc => h.1 c (hr.mem hc), fun hw => h.2 (hw.trans hr.isInfix)⟩

theorem tok_special {cfg : ParserCfg} {s t : Str} (h : Markless cfg s) (ht : t ≠ []) (hs : ∀ c ∈ t, cfg.special c = true) :
    tok t s = .fail := by
  unfold tok
  rw [if_neg]
  intro hp
  obtain ⟨c, t, rfl⟩ := List.exists_cons_of_ne_nil ht
  rw [startsWith, List.isPrefixOf_iff_prefix] at hp
  have := h.1 c ((skip_suffix s).mem (hp.mem (by simp)))
  rw [hs c (by simp)] at this
  cases this

theorem tok_wildcard {cfg : ParserCfg} {s : Str} (h : Markless cfg s) : tok cfg.wildcardWrap s = .fail := by
  unfold tok
  rw [if_neg]
  intro hp
  rw [startsWith, List.isPrefixOf_iff_prefix] at hp
  exact h.2 (hp.isInfix.trans (skip_suffix s).isInfix)

theorem chunk_markless {cfg : ParserCfg} (hc : cfg.Usable) {vp pv : Str → P Cmd} {s : Str} (h : Markless cfg s) :
    chunk cfg vp pv s = literal cfg.wildcardWrap cfg.special s := by
  have h1 := tok_special h hc.variableNe (fun c hc => by simp [ParserCfg.special, hc])
  have h2 := tok_special h hc.wrapNe (fun c hc => by simp [ParserCfg.special, hc])
  have h3 := tok_special h hc.variantNe (fun c hc => by simp [ParserCfg.special, hc])
  have h4 := tok_wildcard h
  unfold chunk variableAssignment variableAccess accessTok wrapCommand variantsTok wildcardTok
  rw [h1, h2, h3, h4]
  rfl

theorem many_invariant {α : Type} {stop : Str → Bool} {p : Str → P α} {I : Str → Prop} {Q : α → Prop}
    (hp : ∀ s, I s → ∀ a r, p s = .ok a r → Q a ∧ I r) : ∀ (n : Nat) (s : Str), I s →
      P.All (fun l : List α => ∀ a ∈ l, Q a) (many stop p n s)
  | 0, _, _ => .fuel
  | n + 1, s, hs => by
    unfold Verif.many
    split
    · exact .ok (by simp)
    · split
      · rename_i a r e
        obtain ⟨h1, h2⟩ := hp s hs a r e
        refine (many_invariant hp n r h2).bind fun as r' has => .ok ?_
        rintro b hb
        rcases List.mem_cons.1 hb with rfl | hb
        · exact h1
        · exact has b hb
      · exact .ok (by simp)
      · exact .err
      · exact .fuel

/-- A text, or a sequence of texts. -/
def Texts (c : Cmd) : Prop := (∃ s, c = .lit s none) ∨ ∃ cs, c = .seq cs [] none ∧ ∀ c ∈ cs, ∃ s, c = .lit s none

theorem parseTok_markless {cfg : ParserCfg} (hc : cfg.Usable) {vp pv : Str → P Cmd} {s : Str} (h : Markless cfg s) :
    P.All Texts (parseTok cfg vp pv s) := by
  unfold parseTok promptTok
  split
  · exact .ok (.inl ⟨_, rfl⟩)
  · refine (many_invariant (I := Markless cfg) (Q := IsLit) (fun s hs a r e => ?_) _ _ (h.suffix (skip_suffix s))).bind
      fun cs _ hcs => ?_
    · rw [chunk_markless hc hs] at e
      refine ⟨literal_all _ _ _ _ _ e, ?_⟩
      unfold literal at e
      dsimp only at e
      split at e
      · cases e
      · simp only [P.ok.injEq] at e
        rw [← e.2]
        exact hs.suffix (litPieces_suffix _ _ _ _)
    · split
      · refine .ok ?_
        match cs, hcs with
        | [], _ => exact .inr ⟨[], rfl, by simp⟩
        | [c], h => obtain ⟨s, _, h⟩ := h c (by simp); exact .inl ⟨s, h⟩
        | c :: d :: cs, h =>
          refine .inr ⟨_, rfl, fun x hx => ?_⟩
          obtain ⟨s, _, h⟩ := h x hx
          exact ⟨s, h⟩
      · exact .fail

theorem Spec.NoBlankMarks.variant {cfg : ParserCfg} (h : Spec.NoBlankMarks cfg) : cfg.variantSpecial ' ' = false := by
  simp [ParserCfg.variantSpecial, ParserCfg.special, h.variantStart, h.variableStart, h.wrapStart, h.variantEnd]

theorem Spec.NoBlankMarks.special {cfg : ParserCfg} (h : Spec.NoBlankMarks cfg) : cfg.special ' ' = false := by
  have := h.variant
  simp only [ParserCfg.variantSpecial, Bool.or_eq_false_iff] at this
  exact this.1

theorem expandTabs_mem {d : Char} : ∀ {col : Nat} {s : Str}, d ∈ expandTabs col s → d = ' ' ∨ d ∈ s
  | _, [], h => by cases h
  | col, c :: cs, h => by
    unfold expandTabs at h
    split at h
    · rcases List.mem_append.1 h with h | h
      · exact .inl (List.eq_of_mem_replicate h)
      · rcases expandTabs_mem h with h | h
        · exact .inl h
        · exact .inr (List.mem_cons_of_mem _ h)
    · split at h <;>
      · rcases List.mem_cons.1 h with rfl | h
        · exact .inr List.mem_cons_self
        · rcases expandTabs_mem h with h | h
          · exact .inl h
          · exact .inr (List.mem_cons_of_mem _ h)

theorem expandTabs_prefix {t : Str} (ht : ' ' ∉ t) : ∀ {col : Nat} {s : Str}, t <+: expandTabs col s → t <+: s := by
  induction t with
  | nil => exact fun _ => List.nil_prefix
  | cons d t ih =>
    intro col s h
    have ih := @ih (fun h => ht (List.mem_cons_of_mem _ h))
    cases s with
    | nil => exact h
    | cons c cs =>
      unfold expandTabs at h
      split at h
      · have : 8 - col % 8 = (8 - col % 8 - 1) + 1 := by omega
        rw [this, List.replicate_succ, List.cons_append, List.cons_prefix_cons] at h
        exact absurd (h.1 ▸ List.mem_cons_self) ht
      · split at h <;>
        · rw [List.cons_prefix_cons] at h ⊢
          exact ⟨h.1, ih h.2⟩

theorem infix_replicate {t : Str} (ht : ' ' ∉ t) (hne : t ≠ []) : ∀ {n : Nat} {s : Str},
    t <:+: List.replicate n ' ' ++ s → t <:+: s
  | 0, _, h => h
  | n + 1, s, h => by
    rw [List.replicate_succ, List.cons_append, List.infix_cons_iff] at h
    rcases h with h | h
    · obtain ⟨d, t, rfl⟩ := List.exists_cons_of_ne_nil hne
      rw [List.cons_prefix_cons] at h
      exact absurd (h.1 ▸ List.mem_cons_self) ht
    · exact infix_replicate ht hne h

theorem expandTabs_infix {t : Str} (ht : ' ' ∉ t) (hne : t ≠ []) : ∀ {s : Str} {col : Nat},
    t <:+: expandTabs col s → t <:+: s
  | [], _, h => h
  | c :: cs, col, h => by
    by_cases hc : c = '\t'
    · subst hc
      unfold expandTabs at h
      rw [if_pos rfl] at h
      exact List.infix_cons (expandTabs_infix ht hne (infix_replicate ht hne h))
    · have h' : ∃ col', t <:+: c :: expandTabs col' cs := by
        unfold expandTabs at h
        rw [if_neg hc] at h
        split at h
        · exact ⟨_, h⟩
        · exact ⟨_, h⟩
      obtain ⟨col', h'⟩ := h'
      rw [List.infix_cons_iff] at h' ⊢
      rcases h' with h' | h'
      · refine .inl ?_
        obtain ⟨d, t, rfl⟩ := List.exists_cons_of_ne_nil hne
        rw [List.cons_prefix_cons] at h' ⊢
        exact ⟨h'.1, expandTabs_prefix (fun h => ht (List.mem_cons_of_mem _ h)) h'.2⟩
      · exact .inr (expandTabs_infix ht hne h')

/-- Texts without marks are parsed as texts. -/
theorem parse_markless {cfg : ParserCfg} (hc : cfg.Usable) (hs : Spec.NoBlankMarks cfg) {s : Str} (h : Markless cfg s) {c : Cmd}
    (hp : parse cfg s = .ok c) : Texts c := by
  have h' : Markless cfg (expandTabs 0 s) := by
    refine ⟨fun c hc => ?_, fun hi => h.2 (expandTabs_infix hs.wildcardWrap hc.wildcardNe hi)⟩
    rcases expandTabs_mem hc with rfl | hc
    · exact hs.special
    · exact h.1 c hc
  unfold parse parseAt at hp
  split at hp
  · rename_i c' r e
    simp only [Option.getD_some, Except.ok.injEq] at hp
    subst hp
    exact parseTok_markless hc h' _ _ e
  all_goals cases hp

/-! ## The names in parsed templates -/

theorem litRun_clean (wrap : Str) (hne : wrap ≠ []) (ex : Char → Bool) : ∀ s : Str,
    (∀ c ∈ (litRun wrap ex s).1, ex c = false) ∧ ¬ wrap <:+: (litRun wrap ex s).1
  | [] => ⟨by simp [litRun], fun h => hne (List.infix_nil.1 h)⟩
  | c :: cs => by
    have ih := litRun_clean wrap hne ex cs
    unfold litRun
    split
    · exact ⟨by simp, fun h => hne (List.infix_nil.1 h)⟩
    · rename_i h
      simp only [Bool.or_eq_true, not_or, Bool.not_eq_true] at h
      refine ⟨?_, ?_⟩
      · intro d hd
        rcases List.mem_cons.1 hd with rfl | hd
        · exact h.1
        · exact ih.1 d hd
      · intro hi
        rw [List.infix_cons_iff] at hi
        rcases hi with hi | hi
        · have hp : (litRun wrap ex cs).1 <+: cs := ⟨_, litRun_append wrap ex cs⟩
          have : wrap <+: c :: cs := hi.trans ((List.prefix_cons_inj c).2 hp)
          have h2 := h.2
          rw [startsWith, Bool.eq_false_iff, ne_eq, List.isPrefixOf_iff_prefix] at h2
          exact h2 this
        · exact ih.2 hi

theorem litPieces_clean (wrap : Str) (hne : wrap ≠ []) (ex : Char → Bool) : ∀ (n : Nat) (s : Str),
    ∀ x ∈ (litPieces wrap ex n s).1, (∀ c ∈ x, ex c = false) ∧ ¬ wrap <:+: x
  | 0, _ => by simp [litPieces]
  | n + 1, s => by
    unfold litPieces
    dsimp only
    split
    · simp
    · intro x hx
      rcases List.mem_cons.1 hx with rfl | hx
      · exact litRun_clean wrap hne ex _
      · exact litPieces_clean wrap hne ex n _ x hx

theorem infix_space {t : Str} (ht : ' ' ∉ t) : ∀ {a b : Str}, t <:+: a ++ ' ' :: b → t <:+: a ∨ t <:+: b
  | [], b, h => by
    rw [List.nil_append, List.infix_cons_iff] at h
    rcases h with h | h
    · cases t with
      | nil => exact .inl List.nil_infix
      | cons d t =>
        rw [List.cons_prefix_cons] at h
        exact absurd (h.1 ▸ List.mem_cons_self) ht
    · exact .inr h
  | c :: a, b, h => by
    rw [List.cons_append, List.infix_cons_iff] at h
    rcases h with h | h
    · refine .inl (List.IsPrefix.isInfix ?_)
      obtain ⟨u, hu⟩ := h
      rw [← List.cons_append, List.append_eq_append_iff] at hu
      rcases hu with ⟨v, hv, _⟩ | ⟨v, hv, hu⟩
      · exact ⟨v, hv.symm⟩
      · cases v with
        | nil => exact ⟨[], by rw [hv, List.append_nil, List.append_nil]⟩
        | cons d v =>
          rw [List.cons_append, List.cons.injEq] at hu
          refine absurd ?_ ht
          rw [hv, ← hu.1]
          simp
    · rcases infix_space ht h with h | h
      · exact .inl (List.infix_cons h)
      · exact .inr h

theorem pyJoin_clean {wrap : Str} (hw : ' ' ∉ wrap) (hne : wrap ≠ []) {ex : Char → Bool} (hex : ex ' ' = false) :
    ∀ xs : List Str, (∀ x ∈ xs, (∀ c ∈ x, ex c = false) ∧ ¬ wrap <:+: x) →
      (∀ c ∈ pyJoin [' '] xs, ex c = false) ∧ ¬ wrap <:+: pyJoin [' '] xs
  | [], _ => ⟨by simp [pyJoin], fun h => hne (List.infix_nil.1 (by simpa [pyJoin] using h))⟩
  | [x], h => by simpa [pyJoin] using h x (by simp)
  | x :: y :: ys, h => by
    have ih := pyJoin_clean hw hne hex (y :: ys) fun z hz => h z (List.mem_cons_of_mem _ hz)
    have hx := h x (by simp)
    have e : pyJoin [' '] (x :: y :: ys) = x ++ ' ' :: pyJoin [' '] (y :: ys) := by simp [pyJoin]
    rw [e]
    refine ⟨fun c hc => ?_, fun hi => ?_⟩
    · rcases List.mem_append.1 hc with hc | hc
      · exact hx.1 c hc
      · rcases List.mem_cons.1 hc with rfl | hc
        · exact hex
        · exact ih.1 c hc
    · rcases infix_space hw hi with hi | hi
      · exact hx.2 hi
      · exact ih.2 hi

/-- The commands a command is made of. -/
inductive Within : Cmd → Cmd → Prop
  | token {toks sep m c} : c ∈ toks → Within (.seq toks sep m) c
  | option {opts lo hi sep m p} : p ∈ opts → Within (.variant opts lo hi sep m) p.1
  | path {c m v} : Within (.wild (.inr c) m v) c
  | param {path m v p} : p ∈ v → Within (.wild path m v) p.2
  | assigned {n v i o} : Within (.assign n v i o) v
  | default {n d} : Within (.access n (some d)) d
  | wrapper {w i m} : Within (.wrap w i m) w
  | inner {w i m} : Within (.wrap w i m) i

/-- The names of all wildcards are texts without marks. -/
def Tame (cfg : ParserCfg) (c : Cmd) : Prop :=
  ∀ s m v, Relation.ReflTransGen Within c (.wild (.inl s) m v) → Markless cfg s

theorem Tame.part {cfg : ParserCfg} {c c' : Cmd} (h : Tame cfg c) (hp : Within c c') : Tame cfg c' :=
  fun s m v hs => h s m v (.head hp hs)

theorem Tame.intro {cfg : ParserCfg} {c : Cmd} (h : ∀ s m v, c = .wild (.inl s) m v → Markless cfg s)
    (hp : ∀ c', Within c c' → Tame cfg c') : Tame cfg c := by
  intro s m v hs
  rcases Relation.ReflTransGen.cases_head hs with rfl | ⟨d, h1, h2⟩
  · exact h s m v rfl
  · exact hp d h1 s m v h2

theorem Tame.lit {cfg : ParserCfg} {s : Str} {m : Option Method} : Tame cfg (.lit s m) :=
  .intro (by intro _ _ _ h; cases h) (by intro _ h; cases h)

/-- A text without marks, or something else that is tame. -/
def TamePath (cfg : ParserCfg) (c : Cmd) : Prop := Tame cfg c ∧ ∀ s m, c = .lit s m → Markless cfg s

theorem literal_tame {cfg : ParserCfg} (hc : cfg.Usable) (hs : Spec.NoBlankMarks cfg) {ex : Char → Bool}
    (hex : ∀ c, ex c = false → cfg.special c = false) (hsp : ex ' ' = false) (s : Str) :
    P.All (TamePath cfg) (literal cfg.wildcardWrap ex s) := by
  unfold literal
  dsimp only
  split
  · exact .fail
  · refine .ok ⟨.lit, fun t m h => ?_⟩
    cases h
    have := pyJoin_clean hs.wildcardWrap hc.wildcardNe hsp _ (litPieces_clean cfg.wildcardWrap hc.wildcardNe ex s.length s)
    exact ⟨fun c hc => hex c (this.1 c hc), this.2⟩

theorem literal_tame' {cfg : ParserCfg} {wrap : Str} {ex : Char → Bool} (s : Str) :
    P.All (Tame cfg) (literal wrap ex s) := by
  intro c r h
  obtain ⟨t, _, rfl⟩ := literal_all _ _ _ _ _ h
  exact .lit

theorem seqCmd_tame {cfg : ParserCfg} : ∀ {cs : List Cmd}, (∀ c ∈ cs, Tame cfg c) → Tame cfg (seqCmd cs)
  | [], _ => .intro (by intro _ _ _ h; cases h) (by intro _ h; cases h; rename_i h; cases h)
  | [c], h => h c (by simp)
  | c :: d :: cs, h => .intro (by intro _ _ _ h; cases h) (by intro _ h'; cases h' with | token h' => exact h _ h')

theorem variantsTok_no_lit {cfg : ParserCfg} {vp : Str → P Cmd} {s r t : Str} {m : Option Method}
    (h : variantsTok cfg vp s = .ok (.lit t m) r) : False := by
  have : P.All (fun c => ∀ t m, c ≠ .lit t m) (variantsTok cfg vp s) := by
    unfold variantsTok
    refine .skip' fun _ _ => .skip' fun _ _ => .skip' fun b _ => .skip' fun _ _ => .skip' fun _ _ => .ok ?_
    cases b <;> exact fun _ _ h => by cases h
  exact this _ _ h t m rfl

section
variable {cfg : ParserCfg} (hc : cfg.Usable) (hs : Spec.NoBlankMarks cfg)
  {vp : Str → P Cmd} (hv : ∀ s, P.All (Tame cfg) (vp s))
include hv

theorem optionTok_tame (s : Str) : P.All (fun o => Tame cfg o.1) (optionTok vp s) := by
  unfold optionTok
  exact .skip' fun _ r => (hv r).bind fun c s h => .ok h

theorem variantsTok_tame (s : Str) : P.All (Tame cfg) (variantsTok cfg vp s) := by
  unfold variantsTok
  refine .skip' fun _ _ => .skip' fun _ _ => .skip' fun b _ => P.All.bind (Q := fun os => ∀ o ∈ os, Tame cfg o.1) ?_
    fun opts _ ho => .skip' fun _ _ => .ok ?_
  · unfold optionsTok
    refine (optionTok_tame hv _).bind fun o r ho =>
      (P.All.many (Q := fun o : Cmd × Rat => Tame cfg o.1)
        (fun s => .skip' fun _ r => optionTok_tame hv r) _ _).bind fun os r' hos => .ok ?_
    intro x hx
    rcases List.mem_cons.1 hx with rfl | hx
    · exact ho
    · exact hos x hx
  · cases b <;>
    exact .intro (by intro _ _ _ h; cases h) (by intro _ h; cases h with | option h => exact ho _ h)

theorem accessTok_tame (s : Str) : P.All (fun nd => ∀ d ∈ nd.2, Tame cfg d) (accessTok cfg vp s) := by
  unfold accessTok
  exact .skip' fun _ _ => .skip' fun n _ =>
    (P.All.opt (.skip' fun _ _ => hv _)).bind fun d _ hd => .skip' fun _ _ => .ok hd

theorem variableAccess_tame (s : Str) : P.All (Tame cfg) (variableAccess cfg vp s) := by
  unfold variableAccess
  refine (accessTok_tame hv s).bind fun nd _ h => .ok ?_
  exact .intro (by intro _ _ _ h; cases h) (by
    intro c h'
    obtain ⟨n, d⟩ := nd
    cases h'
    exact h c rfl)

omit hv in
theorem wildcardVariableAccess_tame (s : Str) : P.All (TamePath cfg) (wildcardVariableAccess cfg vp s) := by
  unfold wildcardVariableAccess
  refine .skip' fun nd _ => ?_
  split
  · exact .ok ⟨.intro (by intro _ _ _ h; cases h) (by intro _ h; cases h; exact .lit), by intro _ _ h; cases h⟩
  · exact .err

theorem variableAssignment_tame (s : Str) : P.All (Tame cfg) (variableAssignment cfg vp s) := by
  unfold variableAssignment
  exact .skip' fun _ _ => .skip' fun n _ => .skip' fun _ _ => .skip' fun _ _ =>
    .skip' fun _ _ => (hv _).bind fun v _ hv => .skip' fun _ _ => .ok
      (.intro (by intro _ _ _ h; cases h) (by intro _ h; cases h; exact hv))

theorem wrapCommand_tame (s : Str) : P.All (Tame cfg) (wrapCommand cfg vp s) := by
  unfold wrapCommand
  exact .skip' fun _ _ => (hv _).bind fun a _ ha => .skip' fun _ _ => (hv _).bind fun b _ hb =>
    .skip' fun _ _ => .ok (.intro (by intro _ _ _ h; cases h) (by
      intro _ h
      cases h
      · exact ha
      · exact hb))

include hc hs in
theorem wildcardPath_tame (s : Str) : P.All (TamePath cfg) (wildcardPath cfg vp s) := by
  unfold wildcardPath
  refine (P.All.many (Q := TamePath cfg) (fun s => ?_) _ _).bind fun cs _ h => ?_
  · refine .or (wildcardVariableAccess_tame _) (.or ?_ (.or ?_ ?_))
    · intro c r e
      refine ⟨variantsTok_tame hv _ c r e, fun t m h => ?_⟩
      subst h
      obtain h := variantsTok_no_lit e
      cases h
    · refine literal_tame hc hs (fun c h => ?_) ?_ _
      · simp only [ParserCfg.wildcardSpecial, Bool.or_eq_false_iff] at h
        exact h.1.1
      · simp [ParserCfg.wildcardSpecial, hs.special]
    · refine literal_tame hc hs (fun c h => ?_) hs.variant _
      simp only [ParserCfg.variantSpecial, Bool.or_eq_false_iff] at h
      exact h.1
  · split
    · exact .fail
    · refine .ok ?_
      match cs, h with
      | [], _ => exact ⟨seqCmd_tame (by simp), by intro _ _ h; cases h⟩
      | [c], h => exact h c (by simp)
      | c :: d :: cs, h => exact ⟨seqCmd_tame fun c hc => (h c hc).1, by intro _ _ h; cases h⟩

variable {pv : Str → P Cmd} (hp : ∀ s, P.All (Tame cfg) (pv s))
include hp

omit hv in
theorem parseSpec_tame : ∀ ps : List Str,
    P.All (fun l : List (Str × Cmd) => ∀ p ∈ l, Tame cfg p.2) (parseSpec pv ps)
  | [] => .ok (by simp)
  | p :: ps => by
    unfold parseSpec
    refine (hp _).bind fun c _ hc => (parseSpec_tame ps).bind fun l _ hl => .ok ?_
    intro x hx
    rcases List.mem_cons.1 hx with rfl | hx
    · exact hc
    · exact hl x hx

omit hv hp in
theorem wildcardCmd_tame {m : Option Method} {c : Cmd} {vars : List (Str × Cmd)}
    (hc : TamePath cfg c) (hvars : ∀ p ∈ vars, Tame cfg p.2) : Tame cfg (wildcardCmd m c vars) := by
  unfold wildcardCmd
  split
  · refine .intro (fun s m v h => ?_) (fun c' h => ?_)
    · cases h
      exact hc.2 _ _ rfl
    · cases h with
      | param h => exact hvars _ h
  · refine .intro (fun s m v h => ?_) (fun c' h => ?_)
    · cases h
    · cases h with
      | param h => exact hvars _ h
      | path => exact hc.1

include hc hs in
theorem wildcardTok_tame (s : Str) : P.All (Tame cfg) (wildcardTok cfg vp pv s) := by
  unfold wildcardTok
  refine .skip' fun _ _ => .skip' fun _ _ => (wildcardPath_tame hc hs hv _).bind fun path _ hpath =>
    .skip' fun spec _ => .skip' fun _ _ => ?_
  cases spec with
  | none => exact .ok (wildcardCmd_tame hpath (by simp))
  | some w => exact (parseSpec_tame hp _).bind fun vars _ hvars => P.All.ok <|
      wildcardCmd_tame hpath (dict_update_all _ _ (by simp) hvars)

include hc hs in
theorem variantPrompt_tame (s : Str) : P.All (Tame cfg) (variantPrompt cfg vp pv s) := by
  unfold variantPrompt
  refine (P.All.many (Q := Tame cfg) (fun s => ?_) _ _).bind fun cs _ h => .ok (seqCmd_tame h)
  exact .or (variableAccess_tame hv _) (.or (wrapCommand_tame hv _) (.or (variantsTok_tame hv _)
    (.or (wildcardTok_tame hc hs hv hp _) (literal_tame' _))))

include hc hs in
theorem parseTok_tame (s : Str) : P.All (Tame cfg) (parseTok cfg vp pv s) := by
  unfold parseTok promptTok
  split
  · exact .ok .lit
  · refine (P.All.many (Q := Tame cfg) (fun s => ?_) _ _).bind fun cs _ h => ?_
    · exact .or (variableAssignment_tame hv _) (.or (variableAccess_tame hv _) (.or (wrapCommand_tame hv _)
        (.or (variantsTok_tame hv _) (.or (wildcardTok_tame hc hs hv hp _) (literal_tame' _)))))
    · split
      · exact .ok (seqCmd_tame h)
      · exact .fail

end

theorem parsers_tame {cfg : ParserCfg} (hc : cfg.Usable) (hs : Spec.NoBlankMarks cfg) :
    ∀ (n : Nat) (s : Str), P.All (Tame cfg) ((parsers cfg n).1 s) ∧ P.All (Tame cfg) ((parsers cfg n).2 s)
  | 0, _ => ⟨.fuel, .fuel⟩
  | n + 1, s =>
    have h1 := fun s => (parsers_tame hc hs n s).1
    have h2 := fun s => (parsers_tame hc hs n s).2
    ⟨variantPrompt_tame hc hs h1 h2 s, parseTok_tame hc hs h1 h2 s⟩

/-- The names of wildcards in parsed templates are texts without marks. -/
theorem parse_tame {cfg : ParserCfg} (hc : cfg.Usable) (hs : Spec.NoBlankMarks cfg) {s : Str}
    {c : Cmd} (h : parse cfg s = .ok c) : Tame cfg c := by
  unfold parse parseAt at h
  split at h
  · rename_i c' r e
    simp only [Option.getD_some, Except.ok.injEq] at h
    subst h
    exact (parsers_tame hc hs _ _).2 _ _ e
  all_goals cases h

end Verif
