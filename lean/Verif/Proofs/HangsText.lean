import Verif.Proofs.ParserNames
import Verif.Proofs.Hangs
/-! Finitely many commands are involved where everything is given as texts and there are finitely many values. -/

namespace Verif
open Spec
variable {W : Type} {E : Env W} {ctx : Ctx} {p : Prompt}

/-- The parts of a command without the values of wildcards. -/
inductive Near (E : Env W) : Cmd → Cmd → Prop
  | within {c c'} : Within c c' → Near E c c'
  | name {s m v c} : E.parse s = .ok c → Near E (.wild (.inl s) m v) c

theorem within_sizeOf {c c' : Cmd} (h : Within c c') : sizeOf c' < sizeOf c := by
  cases h with
  | token h => have := List.sizeOf_lt_of_mem h; simp; omega
  | option h =>
    rename_i opts lo hi sep m p
    have := List.sizeOf_lt_of_mem h
    have : sizeOf p.1 < sizeOf p := by cases p; simp; omega
    simp; omega
  | path => simp; omega
  | param h =>
    rename_i path m v p
    have := List.sizeOf_lt_of_mem h
    have : sizeOf p.2 < sizeOf p := by cases p; simp
    simp; omega
  | assigned => simp; omega
  | default => simp; omega
  | wrapper => simp; omega
  | inner => simp; omega

theorem within_finite (c : Cmd) : {c' | Within c c'}.Finite := by
  cases c with
  | lit s m => exact (Set.finite_empty).subset fun c' h => by cases h
  | seq toks sep m => exact (List.finite_toSet toks).subset fun c' h => by cases h; assumption
  | variant opts lo hi sep m =>
    exact (List.finite_toSet (opts.map (·.1))).subset fun c' h => by
      cases h with
      | option h => exact List.mem_map_of_mem (f := (·.1)) h
  | wild path m v =>
    have h1 : {c' | path = .inr c'}.Finite :=
      Set.Subsingleton.finite fun a ha b hb => by have := ha.symm.trans hb; cases this; rfl
    exact (h1.union (List.finite_toSet (v.map (·.2)))).subset fun c' h => by
      cases h with
      | path => exact .inl rfl
      | param h => exact .inr (List.mem_map_of_mem (f := (·.2)) h)
  | assign n v i o => exact (Set.finite_singleton v).subset fun c' h => by cases h; rfl
  | access n d =>
    cases d with
    | none => exact (Set.finite_empty).subset fun c' h => by cases h
    | some d => exact (Set.finite_singleton d).subset fun c' h => by cases h; rfl
  | wrap w i m =>
    exact (Set.Finite.insert w (Set.finite_singleton i)).subset fun c' h => by
      cases h
      · exact .inl rfl
      · exact .inr rfl

theorem texts_near {c : Cmd} (h : Texts c) : {c' | Relation.ReflTransGen (Near E) c c'}.Finite := by
  refine (Set.Finite.insert c (within_finite c)).subset fun c' hc => ?_
  have hlit : ∀ s x, Relation.ReflTransGen (Near E) (.lit s none) x → x = .lit s none := by
    intro s x hx
    rcases Relation.ReflTransGen.cases_head hx with rfl | ⟨d, h1, _⟩
    · rfl
    · cases h1 with
      | within h => cases h
  rcases Relation.ReflTransGen.cases_head hc with rfl | ⟨d, h1, h2⟩
  · exact .inl rfl
  · rcases h with ⟨s, rfl⟩ | ⟨cs, rfl, hcs⟩
    · exact .inl (hlit s c' hc)
    · cases h1 with
      | within h =>
        have h' := h
        cases h with
        | token h =>
          obtain ⟨s, rfl⟩ := hcs _ h
          rw [hlit s c' h2]
          exact .inr h'

theorem near_finite {cfg : ParserCfg} (hc : cfg.Usable) (hs : NoBlankMarks cfg) (hE : E.parse = parse cfg) (c : Cmd)
    (ht : Tame cfg c) : {c' | Relation.ReflTransGen (Near E) c c'}.Finite := by
  induction hn : sizeOf c using Nat.strong_induction_on generalizing c with
  | _ n ih =>
    subst hn
    let named : Set Cmd := {d | ∃ s m v, c = .wild (.inl s) m v ∧ E.parse s = .ok d}
    have h1 : named.Finite := Set.Subsingleton.finite fun a ha b hb => by
      obtain ⟨s, m, v, rfl, ha⟩ := ha
      obtain ⟨s', m', v', e, hb⟩ := hb
      cases e
      have := ha.symm.trans hb
      cases this
      rfl
    refine (Set.Finite.insert c (((within_finite c).biUnion (t := fun d => {c' | Relation.ReflTransGen (Near E) d c'})
      fun d h => ?_).union (h1.biUnion (t := fun d => {c' | Relation.ReflTransGen (Near E) d c'}) fun d h => ?_))).subset ?_
    · exact ih _ (within_sizeOf h) d (ht.part h) rfl
    · obtain ⟨s, m, v, rfl, h⟩ := h
      rw [hE] at h
      exact texts_near (parse_markless hc hs (ht s m v .refl) h)
    · intro c' h
      rcases Relation.ReflTransGen.cases_head h with rfl | ⟨d, h1, h2⟩
      · exact .inl rfl
      · cases h1 with
        | within h1 => exact .inr (.inl (Set.mem_biUnion h1 h2))
        | name h1 => exact .inr (.inr (Set.mem_biUnion (x := d) (show d ∈ named from ⟨_, _, _, rfl, h1⟩) h2))

/-- If everything is given as texts and there are finitely many values, finitely many commands are involved. -/
theorem text_involved_finite {cfg : ParserCfg} (hc : cfg.Usable) (hs : NoBlankMarks cfg) (hf : AllText E cfg ctx p)
    (hl : (library E).Finite) : {c | Involved E ctx p c}.Finite := by
  obtain ⟨s, rfl⟩ := hf.text
  let texts : Set Cmd := {c | E.parse s = .ok c} ∪ ({c | ∃ b ∈ ctx.vars, c = b.2} ∪ ({c | E.unknown = some c} ∪
    ⋃ t ∈ library E, {c | E.parse t = .ok c}))
  have hparse : ∀ t, {c | E.parse t = .ok c}.Finite := fun t => Set.Subsingleton.finite fun a ha b hb => by
    have := ha.symm.trans hb; cases this; rfl
  have h1 : texts.Finite := by
    refine (hparse s).union (Set.Finite.union ?_ (Set.Finite.union ?_ (hl.biUnion fun t _ => hparse t)))
    · exact (List.finite_toSet (ctx.vars.map (·.2))).subset fun c h => by
        obtain ⟨b, hb, rfl⟩ := h
        exact List.mem_map_of_mem (f := (·.2)) hb
    · exact Set.Subsingleton.finite fun a ha b hb => by have := ha.symm.trans hb; cases this; rfl
  have htame : ∀ c ∈ texts, Tame cfg c := by
    have hp : ∀ t c, E.parse t = .ok c → Tame cfg c := fun t c h => parse_tame hc hs (by rw [← hf.parser]; exact h)
    rintro c (h | ⟨b, hb, rfl⟩ | h | h)
    · exact hp _ _ h
    · obtain ⟨t, ht⟩ := hf.vars b hb
      exact parse_tame hc hs ht
    · obtain ⟨t, ht⟩ := hf.unknown c h
      exact parse_tame hc hs ht
    · obtain ⟨t, _, h⟩ := Set.mem_iUnion₂.1 h
      exact hp _ _ h
  refine (h1.biUnion (t := fun c => {c' | Relation.ReflTransGen (Near E) c c'}) fun c h =>
    near_finite hc hs hf.parser c (htame c h)).subset ?_
  intro c h
  replace h : Involved E ctx (.inl s) c := h
  induction h with
  | template h => cases h
  | text h h' => cases h; exact Set.mem_biUnion (x := _) (show _ ∈ texts from .inl h') .refl
  | var h => exact Set.mem_biUnion (x := _) (show _ ∈ texts from .inr (.inl ⟨_, h, rfl⟩)) .refl
  | unknown h => exact Set.mem_biUnion (x := _) (show _ ∈ texts from .inr (.inr (.inl h))) .refl
  | @part c c' _ h ih =>
    obtain ⟨r, hr, h'⟩ := Set.mem_iUnion₂.1 ih
    by_cases hn : Near E c c'
    · exact Set.mem_biUnion hr (Relation.ReflTransGen.tail h' hn)
    · cases h with
      | value h1 h2 h3 h4 =>
        exact Set.mem_biUnion (x := c') (show c' ∈ texts from .inr (.inr (.inr
          (Set.mem_iUnion₂.2 ⟨_, ⟨_, _, _, h2, h3, rfl⟩, h4⟩)))) .refl
      | token h => exact absurd (.within (.token h)) hn
      | option h => exact absurd (.within (.option h)) hn
      | path => exact absurd (.within .path) hn
      | pathText h => exact absurd (.name h) hn
      | param h => exact absurd (.within (.param h)) hn
      | assigned => exact absurd (.within .assigned) hn
      | default => exact absurd (.within .default) hn
      | wrapper => exact absurd (.within .wrapper) hn
      | inner => exact absurd (.within .inner) hn

theorem endless_text {cfg : ParserCfg} (hc : cfg.Usable) (hs : NoBlankMarks cfg) (hf : AllText E cfg ctx p)
    (hl : (library E).Finite) (h : Endless E ctx p) : TextEndless E ctx p := by
  cases h with
  | descent h => exact .circular (descent_finite (text_involved_finite hc hs hf hl) h)
  | selection h1 h2 h3 h4 h5 => exact .selection h1 h2 h4 h5
  | manager h1 h2 h3 => exact .manager h1 h2 h3
  | content h1 h2 h3 h4 h5 h6 => exact .content h1 h2 h3 h4 h5 h6
  | dry h1 h2 h3 => exact .dry h1 h2 h3
  | loose h1 h2 h3 h4 => exact .loose h1 h2 h3 h4
  | missing h1 h2 h3 h4 => exact .missing h1 h2 h3 h4

end Verif
