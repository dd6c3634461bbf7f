import Verif.Proofs.ParserShape
import Verif.Proofs.ParserRead
import Verif.Spec.Bare
/-! # Ends of variables and wraps that are taken for text -/

namespace Verif
open Spec (Bare BarePath)

/-- Text inside a part goes on into the mark `d`. -/
structure Swallows (cfg : ParserCfg) (d : Str) : Prop where
  mark : ∃ c r, d = c :: r ∧ cfg.variantSpecial c = false
  wrap : ∀ u, cfg.wildcardWrap.isPrefixOf (d ++ u) = false
  blank : ∀ c, isWs c = true → cfg.variantSpecial c = false ∧ cfg.wildcardWrap.head? ≠ some c
  wrap_ne : cfg.wildcardWrap ≠ []

theorem many_ends {α : Type} {p : Str → P α} {l : List α} {r : Str} : ∀ (n : Nat) (s : Str),
    many (fun _ => false) p n s = .ok l r → p r = .fail
  | 0, _, h => by cases h
  | n + 1, s, h => by
    unfold many at h
    simp only [Bool.false_eq_true, if_false] at h
    cases hp : p s with
    | ok a r' =>
      rw [hp] at h
      dsimp only at h
      cases hm : many (fun _ => false) p n r' with
      | ok as r'' =>
        rw [hm] at h
        obtain ⟨-, rfl⟩ : _ ∧ _ := by simpa [P.bind] using h
        exact many_ends n r' hm
      | _ => rw [hm] at h; cases h
    | fail =>
      rw [hp] at h
      obtain ⟨-, rfl⟩ : _ ∧ _ := by simpa using h
      exact hp
    | err e => rw [hp] at h; cases h
    | fuel => rw [hp] at h; cases h

theorem P.or_fail {α : Type} {x y : P α} (h : x.or y = .fail) : y = .fail := by
  cases x <;> first | exact h | cases h

theorem literal_stops {wrap : Str} {ex : Char → Bool} {s : Str} (h : literal wrap ex s = .fail) :
    (litRun wrap ex (skip s)).1 = [] := by
  cases s with
  | nil => rfl
  | cons a s =>
    unfold literal at h
    simp only [List.length_cons] at h
    unfold litPieces at h
    by_cases he : (litRun wrap ex (skip (a :: s))).1.isEmpty
    · simpa using he
    · simp [he] at h

theorem litRun_stops {wrap : Str} {ex : Char → Bool} {c : Char} {u : Str} (h : (litRun wrap ex (c :: u)).1 = []) :
    ex c = true ∨ wrap.isPrefixOf (c :: u) = true := by
  unfold litRun at h
  split at h
  · rename_i h'
    simpa [startsWith, Bool.or_eq_true] using h'
  · simp at h

/-- Where the text inside a part ends, such a mark does not come. -/
theorem Swallows.no_end {cfg : ParserCfg} {d : Str} (h : Swallows cfg d) {vp pv : Str → P Cmd} {s r : Str} {c : Cmd}
    (hv : variantPrompt cfg vp pv s = .ok c r) : tok d (optWs r) = .fail ∧ tok d r = .fail := by
  unfold variantPrompt at hv
  cases hm : many (fun _ => false) (variantChunk cfg vp pv) (s.length + 1) (skip s) with
  | ok l r' =>
    rw [hm] at hv
    obtain ⟨-, rfl⟩ : _ ∧ _ := by simpa [P.bind] using hv
    have hf := many_ends _ _ hm
    unfold variantChunk at hf
    have hl := literal_stops (P.or_fail (P.or_fail (P.or_fail (P.or_fail hf))))
    have hw : optWs r' = skip r' := by
      unfold optWs
      cases hs : skip r' with
      | nil => rfl
      | cons a u =>
        rw [hs] at hl
        cases ha : isWs a
        · simp [ha]
        · exfalso
          obtain ⟨h1, h2⟩ := h.blank a ha
          rcases litRun_stops hl with h3 | h3
          · rw [h1] at h3; cases h3
          · cases hc : cfg.wildcardWrap with
            | nil => exact absurd hc h.wrap_ne
            | cons b t =>
              rw [hc] at h2 h3
              simp only [List.isPrefixOf, Bool.and_eq_true, beq_iff_eq] at h3
              exact absurd (by rw [h3.1]; rfl) h2
    have ht : startsWith (skip r') d = false := by
      obtain ⟨c, t, rfl, hc⟩ := h.mark
      rw [Bool.eq_false_iff]
      intro hp
      obtain ⟨u, hu⟩ := (List.isPrefixOf_iff_prefix.1 hp : c :: t <+: skip r')
      rw [← hu] at hl
      rcases litRun_stops hl with h3 | h3
      · rw [hc] at h3; cases h3
      · have := h.wrap u
        exact Bool.noConfusion (this.symm.trans h3)
    rw [hw]
    unfold tok
    rw [skip_skip, ht]
    exact ⟨rfl, rfl⟩
  | _ => rw [hm] at hv; cases hv

theorem P.All.bind' {α β : Type} {R : β → Prop} {x : P α} {f : α → Str → P β}
    (hf : ∀ a r, x = .ok a r → P.All R (f a r)) : P.All R (x.bind f) := by
  cases x with
  | ok a r => exact hf a r rfl
  | fail => exact .fail
  | err e => exact .err
  | fuel => exact .fuel

theorem seqCmd_bare : ∀ {cs : List Cmd}, (∀ c ∈ cs, Bare c) → Bare (seqCmd cs)
  | [], _ => .seq (by simp)
  | [c], h => h c (by simp)
  | _ :: _ :: _, h => .seq h

theorem seqCmd_barePath : ∀ {cs : List Cmd}, (∀ c ∈ cs, BarePath c) → BarePath (seqCmd cs)
  | [], _ => .seq (by simp)
  | [c], h => h c (by simp)
  | _ :: _ :: _, h => .seq h

theorem literal_bare (wrap : Str) (ex : Char → Bool) (s : Str) :
    P.All (fun c => ∃ t, c = .lit t none) (literal wrap ex s) := by
  intro c r h
  obtain ⟨t, -, rfl⟩ := literal_all wrap ex s c r h
  exact ⟨t, rfl⟩

section
variable {cfg : ParserCfg} {vp : Str → P Cmd} (hv : ∀ s, P.All Bare (vp s))
  (he : ∀ s c r, vp s = .ok c r → ∀ d, d = cfg.variableEnd ∨ d = cfg.wrapEnd →
    tok d (optWs r) = .fail ∧ tok d r = .fail)

include hv in
theorem optionTok_bare (s : Str) : P.All (fun o => Bare o.1) (optionTok vp s) := by
  unfold optionTok
  exact .skip' fun _ r => (hv r).bind fun c s h => .ok h

include hv in
theorem optionsTok_bare (s : Str) : P.All (fun os => ∀ o ∈ os, Bare o.1) (optionsTok vp s) := by
  unfold optionsTok
  refine (optionTok_bare hv s).bind fun o r ho =>
    (P.All.many (Q := fun o : Cmd × Rat => Bare o.1)
      (fun s => .skip' fun _ r => optionTok_bare hv r) _ _).bind fun os r' hos => .ok ?_
  intro x hx
  rcases List.mem_cons.1 hx with rfl | hx
  · exact ho
  · exact hos x hx

include hv in
theorem variantsTok_bare (s : Str) : P.All (fun c => Bare c ∧ BarePath c) (variantsTok cfg vp s) := by
  unfold variantsTok
  refine .skip' fun _ _ => .skip' fun _ _ => .skip' fun b _ => (optionsTok_bare hv _).bind fun opts _ ho =>
    .skip' fun _ _ => .ok ?_
  unfold variantCmd
  cases b with
  | none => exact ⟨.variant ho, .variant ho⟩
  | some b => exact ⟨.variant ho, .variant ho⟩

include he in
theorem accessTok_bare (s : Str) :
    P.All (fun nd => Spec.varName nd.1 = true ∧ nd.2 = none) (accessTok cfg vp s) := by
  unfold accessTok
  refine .skip' fun _ _ => (nameTok_all _).bind fun n s hn => ?_
  refine .bind' fun d r hd => ?_
  cases d with
  | none => exact .skip' fun _ _ => .ok ⟨hn, rfl⟩
  | some d =>
    cases hx : (tok c!":" (optWs s)).bind fun _ s => vp (optWs s) with
    | ok a r' =>
      rw [hx] at hd
      simp only [P.opt, P.ok.injEq, Option.some.injEq] at hd
      obtain ⟨rfl, rfl⟩ := hd
      cases ht : tok c!":" (optWs s) with
      | ok u r'' =>
        rw [ht] at hx
        rw [(he _ _ _ hx _ (.inl rfl)).1]
        exact .fail
      | _ => rw [ht] at hx; cases hx
    | _ => rw [hx] at hd; cases hd

include he in
theorem variableAssignment_bare (s : Str) : P.All (fun _ => False) (variableAssignment cfg vp s) := by
  unfold variableAssignment
  refine .skip' fun _ _ => .skip' fun _ _ => .skip' fun _ _ => .skip' fun _ _ => .skip' fun _ _ =>
    .bind' fun v r h => ?_
  rw [(he _ _ _ h _ (.inl rfl)).1]
  exact .fail

include he in
theorem wrapCommand_bare (s : Str) : P.All (fun _ => False) (wrapCommand cfg vp s) := by
  unfold wrapCommand
  refine .skip' fun _ _ => .skip' fun _ _ => .skip' fun _ _ => .bind' fun v r h => ?_
  rw [(he _ _ _ h _ (.inr rfl)).2]
  exact .fail

include he in
theorem variableAccess_bare (s : Str) : P.All Bare (variableAccess cfg vp s) := by
  unfold variableAccess
  refine (accessTok_bare he s).bind fun nd _ h => .ok ?_
  rw [h.2]
  exact .access

include hv he in
theorem wildcardPath_bare (s : Str) : P.All BarePath (wildcardPath cfg vp s) := by
  unfold wildcardPath
  refine (P.All.many (Q := BarePath) (fun s => ?_) _ _).bind fun cs _ h => ?_
  · refine .or ?_ (.or (fun a r e => (variantsTok_bare hv _ a r e).2) (.or ?_ ?_))
    · unfold wildcardVariableAccess
      refine (accessTok_bare he s).bind fun nd _ h => ?_
      rw [h.2]
      show P.All _ (P.ok (Cmd.access nd.1 (some (.lit (strip nd.1) none))) _)
      rw [varName_trimmed h.1]
      exact .ok .access
    · intro a r e
      obtain ⟨t, rfl⟩ := literal_bare _ _ _ a r e
      exact .lit
    · intro a r e
      obtain ⟨t, rfl⟩ := literal_bare _ _ _ a r e
      exact .lit
  · split
    · exact .fail
    · exact .ok (seqCmd_barePath h)

variable {pv : Str → P Cmd} (hp : ∀ s, P.All Bare (pv s))

include hp in
theorem parseSpec_bare : ∀ ps : List Str,
    P.All (fun l : List (Str × Cmd) => ∀ p ∈ l, Bare p.2) (parseSpec pv ps)
  | [] => .ok (by simp)
  | p :: ps => by
    unfold parseSpec
    refine (hp _).bind fun c _ hc => (parseSpec_bare ps).bind fun l _ hl => .ok ?_
    intro x hx
    rcases List.mem_cons.1 hx with rfl | hx
    · exact hc
    · exact hl x hx

theorem wildcardCmd_bare {m : Option Method} {c : Cmd} {vars : List (Str × Cmd)}
    (hc : BarePath c) (hvars : ∀ p ∈ vars, Bare p.2) : Bare (wildcardCmd m c vars) := by
  unfold wildcardCmd
  split
  · exact .named hvars
  · exact .path hc hvars

include hv he hp in
theorem wildcardTok_bare (s : Str) : P.All Bare (wildcardTok cfg vp pv s) := by
  unfold wildcardTok
  refine .skip' fun _ _ => .skip' fun _ _ => (wildcardPath_bare hv he _).bind fun path _ hpath =>
    .skip' fun spec _ => .skip' fun _ _ => ?_
  cases spec with
  | none => exact .ok (wildcardCmd_bare hpath (by simp))
  | some w => exact (parseSpec_bare hp _).bind fun vars _ hvars => P.All.ok <|
      wildcardCmd_bare hpath (dict_update_all _ _ (by simp) hvars)

include hv he hp in
theorem variantPrompt_bare (s : Str) : P.All Bare (variantPrompt cfg vp pv s) := by
  unfold variantPrompt
  refine (P.All.many (Q := Bare) (fun s => ?_) _ _).bind fun cs _ h => .ok (seqCmd_bare h)
  refine .or (variableAccess_bare he _) (.or (fun a r e => (wrapCommand_bare he _ a r e).elim)
    (.or (fun a r e => (variantsTok_bare hv _ a r e).1) (.or (wildcardTok_bare hv he hp _) ?_)))
  intro a r e
  obtain ⟨t, rfl⟩ := literal_bare _ _ _ a r e
  exact .lit

include hv he hp in
theorem parseTok_bare (s : Str) : P.All Bare (parseTok cfg vp pv s) := by
  unfold parseTok promptTok
  split
  · exact .ok .lit
  · refine (P.All.many (Q := Bare) (fun s => ?_) _ _).bind fun cs _ h => ?_
    · refine .or (fun a r e => (variableAssignment_bare he _ a r e).elim) (.or (variableAccess_bare he _)
        (.or (fun a r e => (wrapCommand_bare he _ a r e).elim)
        (.or (fun a r e => (variantsTok_bare hv _ a r e).1) (.or (wildcardTok_bare hv he hp _) ?_))))
      intro a r e
      obtain ⟨t, rfl⟩ := literal_bare _ _ _ a r e
      exact .lit
    · split
      · exact .ok (seqCmd_bare h)
      · exact .fail

end

theorem parsers_no_end {cfg : ParserCfg} {d : Str} (h : Swallows cfg d) : ∀ (n : Nat) (s : Str) (c : Cmd) (r : Str),
    (parsers cfg n).1 s = .ok c r → tok d (optWs r) = .fail ∧ tok d r = .fail
  | 0, _, _, _, e => by cases e
  | _ + 1, _, _, _, e => h.no_end e

theorem parsers_bare {cfg : ParserCfg} (h1 : Swallows cfg cfg.variableEnd) (h2 : Swallows cfg cfg.wrapEnd) :
    ∀ (n : Nat) (s : Str), P.All Bare ((parsers cfg n).1 s) ∧ P.All Bare ((parsers cfg n).2 s)
  | 0, _ => ⟨.fuel, .fuel⟩
  | n + 1, s =>
    have hv := fun s => (parsers_bare h1 h2 n s).1
    have hp := fun s => (parsers_bare h1 h2 n s).2
    have he : ∀ s c r, (parsers cfg n).1 s = .ok c r → ∀ d, d = cfg.variableEnd ∨ d = cfg.wrapEnd →
        tok d (optWs r) = .fail ∧ tok d r = .fail := by
      rintro s c r e d (rfl | rfl)
      · exact parsers_no_end h1 n s c r e
      · exact parsers_no_end h2 n s c r e
    ⟨variantPrompt_bare hv he hp s, parseTok_bare hv he hp s⟩

theorem parse_bare {cfg : ParserCfg} (h1 : Swallows cfg cfg.variableEnd) (h2 : Swallows cfg cfg.wrapEnd) {s : Str}
    {c : Cmd} (h : parse cfg s = .ok c) : Bare c := by
  unfold parse parseAt at h
  split at h
  · rename_i c' r e
    simp only [Option.getD_some, Except.ok.injEq] at h
    subst h
    exact (parsers_bare h1 h2 _ _).2 _ _ e
  all_goals cases h

end Verif
