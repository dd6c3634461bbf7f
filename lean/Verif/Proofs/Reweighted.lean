import Verif.Spec.Proportions
import Verif.Spec.Chances
import Mathlib.Algebra.Order.Ring.Rat
import Mathlib.Algebra.Order.Field.Basic
import Mathlib.Data.List.Basic
/-! The chances of prompts depend only on the proportions of weights. -/

namespace Verif
open Spec
variable {W : Type} {E : Env W}

/-! ### Distributions -/

theorem total_times {α : Type} (q : Rat) (l : List (α × Rat)) : total (l.map fun x => (x.1, q * x.2)) = q * total l := by
  unfold total
  induction l with
  | nil => simp
  | cons a l ih =>
    simp only [List.map_cons, List.sum_cons] at ih ⊢
    rw [ih, mul_add]

theorem splits_mapped {α β : Type} (f : α → β) (l : List α) :
    splits (l.map f) = (splits l).map fun p => (f p.1, p.2.map f) := by
  induction l with
  | nil => rfl
  | cons a l ih => simp only [List.map_cons, splits, ih, List.map_map, Function.comp_def]

theorem pickings_times {α : Type} {q : Rat} (hq : 0 < q) (k : Nat) (l : List (α × Rat)) :
    pickings k (l.map fun x => (x.1, q * x.2)) = pickings k l := by
  induction k generalizing l with
  | zero => rfl
  | succ k ih =>
    simp only [pickings, splits_mapped, List.flatMap_map, total_times, ih, mul_div_mul_left _ _ hq.ne']

theorem variantDist_times {q : Rat} (hq : 0 < q) (opts : List (Distr Str × Rat)) (lo hi : Int) (sep : Str) :
    variantDist (opts.map fun x => (x.1, q * x.2)) lo hi sep = variantDist opts lo hi sep := by
  unfold variantDist
  simp only [List.length_map, pickings_times hq]

theorem Distr.map_bind' {α β γ : Type} (f : α → β) (d : Distr α) (g : β → Distr γ) :
    (d.map f).bind g = d.bind fun a => g (f a) := by
  unfold Distr.map Distr.bind
  rw [List.flatMap_map]

theorem Distr.map_map' {α β γ : Type} (f : α → β) (g : β → γ) (d : Distr α) :
    (d.map f).map g = d.map fun a => g (f a) := by
  unfold Distr.map
  rw [List.map_map]
  rfl

theorem Distr.bind_map' {α β γ : Type} (d : Distr α) (g : α → Distr β) (f : β → γ) :
    (d.bind g).map f = d.bind fun a => (g a).map f := by
  unfold Distr.map Distr.bind
  rw [List.map_flatMap]
  simp only [List.map_map, Function.comp_def]

/-! ### Commands -/

theorem Spec.Reweighted.method {c c' : Cmd} (h : Reweighted c c') : c'.method = c.method := by cases h <;> rfl

theorem Spec.ReweightedAll.length {l l' : List Cmd} (h : ReweightedAll l l') : l'.length = l.length := by
  match h with
  | .nil => rfl
  | .cons _ h => simp only [List.length_cons, ReweightedAll.length h]

theorem Spec.ReweightedAll.refl (l : List Cmd) : ReweightedAll l l := by
  induction l with
  | nil => exact .nil
  | cons c l ih => exact .cons .same ih

theorem Spec.ReweightedVars.refl (l : List (Str × Cmd)) : ReweightedVars l l := by
  induction l with
  | nil => exact .nil
  | cons c l ih => exact .cons .same ih

theorem Spec.ReweightedVars.append {a a' b b' : List (Str × Cmd)} (h : ReweightedVars a a') (hb : ReweightedVars b b') :
    ReweightedVars (a ++ b) (a' ++ b') := by
  match h with
  | .nil => exact hb
  | .cons h h' => exact .cons h (ReweightedVars.append h' hb)

theorem Spec.ReweightedOptions.refl (l : List (Cmd × Rat)) : ReweightedOptions 1 l l := by
  induction l with
  | nil => exact .nil
  | cons c l ih =>
    obtain ⟨c, x⟩ := c
    have : ReweightedOptions 1 ((c, x) :: l) ((c, 1 * x) :: l) := .cons .same ih
    rwa [one_mul] at this

theorem Spec.ReweightedOptions.weights {q : Rat} {l l' : List (Cmd × Rat)} (h : ReweightedOptions q l l') :
    l'.map (·.2) = (l.map (·.2)).map (q * ·) := by
  match h with
  | .nil => rfl
  | .cons _ h => simp only [List.map_cons, ReweightedOptions.weights h]

theorem Spec.ReweightedOptions.all {q : Rat} {l l' : List (Cmd × Rat)} (h : ReweightedOptions q l l') :
    ReweightedAll (l.map (·.1)) (l'.map (·.1)) := by
  match h with
  | .nil => exact .nil
  | .cons h1 h => exact .cons h1 (ReweightedOptions.all h)

theorem Spec.ReweightedOptions.length {q : Rat} {l l' : List (Cmd × Rat)} (h : ReweightedOptions q l l') : l'.length = l.length := by
  have := congrArg List.length h.weights
  simpa using this

theorem Spec.Reweighted.truthy {c c' : Cmd} (h : Reweighted c c') : c'.truthy = c.truthy := by
  cases h with
  | seq h =>
    simp only [Cmd.truthy]
    cases h <;> rfl
  | variant _ h =>
    simp only [Cmd.truthy]
    cases h <;> rfl
  | _ => rfl

theorem reweighted_variant {opts : List (Cmd × Rat)} {lo hi : Int} {sep : Str} {m : Option Method} {c' : Cmd}
    (h : Reweighted (.variant opts lo hi sep m) c') : ∃ q opts', c' = .variant opts' lo hi sep m ∧ 0 < q ∧
      ReweightedOptions q opts opts' ∧ (2 ≤ max lo hi → (opts.map (·.1)).Nodup → (opts'.map (·.1)).Nodup) := by
  cases h with
  | same => exact ⟨1, opts, rfl, one_pos, .refl _, fun _ h => h⟩
  | variant hq h h' => exact ⟨_, _, rfl, hq, h, h'⟩

theorem reweighted_seq {toks : List Cmd} {sep : Str} {m : Option Method} {c' : Cmd}
    (h : Reweighted (.seq toks sep m) c') : ∃ toks', c' = .seq toks' sep m ∧ ReweightedAll toks toks' := by
  cases h with
  | same => exact ⟨toks, rfl, .refl _⟩
  | seq h => exact ⟨_, rfl, h⟩

/-- Paths of wildcards. -/
inductive ReweightedPath : Prompt → Prompt → Prop
  | same {p} : ReweightedPath p p
  | cmd {c c'} : Reweighted c c' → ReweightedPath (.inr c) (.inr c')

theorem reweighted_wild {path : Prompt} {m : Option Method} {v : List (Str × Cmd)} {c' : Cmd}
    (h : Reweighted (.wild path m v) c') :
    ∃ path' v', c' = .wild path' m v' ∧ ReweightedPath path path' ∧ ReweightedVars v v' := by
  cases h with
  | same => exact ⟨_, _, rfl, .same, .refl _⟩
  | wild h => exact ⟨_, _, rfl, .same, h⟩
  | wildPath h h' => exact ⟨_, _, rfl, .cmd h, h'⟩

theorem reweighted_assign {n : Str} {v : Cmd} {i o : Bool} {c' : Cmd}
    (h : Reweighted (.assign n v i o) c') : ∃ v', c' = .assign n v' i o ∧ Reweighted v v' := by
  cases h with
  | same => exact ⟨_, rfl, .same⟩
  | assign h => exact ⟨_, rfl, h⟩

theorem reweighted_lit {s : Str} {m : Option Method} {c' : Cmd} (h : Reweighted (.lit s m) c') : c' = .lit s m := by
  cases h; rfl

theorem reweighted_not_lit {c c' : Cmd} (h : Reweighted c c') (hc : ∀ s m, c ≠ .lit s m) (s : Str) (m : Option Method) :
    c' ≠ .lit s m := by
  rintro rfl
  cases h
  exact hc _ _ rfl

theorem reweighted_not_assign {c c' : Cmd} (h : Reweighted c c') (hc : ∀ n v i o, c ≠ .assign n v i o) (n : Str) (v : Cmd)
    (i o : Bool) : c' ≠ .assign n v i o := by
  rintro rfl
  cases h with
  | same => exact hc _ _ _ _ rfl
  | assign h => exact hc _ _ _ _ rfl

theorem reweighted_wrap {w i : Cmd} {m : Option Method} {c' : Cmd}
    (h : Reweighted (.wrap w i m) c') : ∃ w' i', c' = .wrap w' i' m ∧ Reweighted w w' ∧ Reweighted i i' := by
  cases h with
  | same => exact ⟨_, _, rfl, .same, .same⟩
  | wrap h h' => exact ⟨_, _, rfl, h, h'⟩

/-- Defaults. -/
inductive ReweightedDefault : Option Cmd → Option Cmd → Prop
  | none : ReweightedDefault none none
  | some {c c'} : Reweighted c c' → ReweightedDefault (some c) (some c')

theorem reweighted_access {n : Str} {d : Option Cmd} {c' : Cmd}
    (h : Reweighted (.access n d) c') : ∃ d', c' = .access n d' ∧ ReweightedDefault d d' := by
  cases h with
  | same => exact ⟨d, rfl, by cases d <;> [exact .none; exact .some .same]⟩
  | access h => exact ⟨_, rfl, .some h⟩

theorem reweighted_lookup {vars vars' : List (Str × Cmd)} (h : ReweightedVars vars vars') (n : Str) :
    (vars.lookup n = none ∧ vars'.lookup n = none) ∨
      ∃ c c', Reweighted c c' ∧ vars.lookup n = some c ∧ vars'.lookup n = some c' := by
  match h with
  | .nil => exact .inl ⟨rfl, rfl⟩
  | .cons (n := x) (c := c) (c' := c') hc h =>
    simp only [List.lookup_cons]
    by_cases h' : n = x
    · subst h'; simp only [beq_self_eq_true]; exact .inr ⟨c, c', hc, rfl, rfl⟩
    · simp only [beq_eq_false_iff_ne.2 h']; exact reweighted_lookup h n

theorem reweighted_resolves {u : Option Cmd} {vars vars' : List (Str × Cmd)} (hv : ReweightedVars vars vars') {n : Str}
    {d d' : Option Cmd} {c : Cmd} (hd : ReweightedDefault d d') (h : Resolves u vars n d c) :
    ∃ c', Reweighted c c' ∧ Resolves u vars' n d' c' := by
  rcases reweighted_lookup hv n with ⟨h1, h2⟩ | ⟨c1, c2, hc, h1, h2⟩
  · cases h with
    | var h h' => rw [h1] at h; cases h
    | default h h' =>
      cases hd with
      | some hd => exact ⟨_, hd, .default h2 (by rw [hd.truthy]; exact h')⟩
    | unknownEmpty h h' e => rw [h1] at h; cases h
    | unknownEmptyDefault h h' e =>
      cases hd with
      | some hd => exact ⟨_, .same, .unknownEmptyDefault h2 (by rw [hd.truthy]; exact h') e⟩
    | unknown h e =>
      cases hd with
      | none => exact ⟨_, .same, .unknown h2 e⟩
  · cases h with
    | var h h' =>
      rw [h1] at h; cases h
      exact ⟨_, hc, .var h2 (by rw [hc.truthy]; exact h')⟩
    | default h h' => rw [h1] at h; cases h
    | unknownEmpty h h' e =>
      rw [h1] at h; cases h
      exact ⟨_, .same, .unknownEmpty h2 (by rw [hc.truthy]; exact h') e⟩
    | unknownEmptyDefault h h' e => rw [h1] at h; cases h
    | unknown h e => rw [h1] at h; cases h

theorem together_times {q : Rat} (hq : 0 < q) {l : List Rat} (h : Together l) : Together (l.map (q * ·)) := by
  intro a b c hs hac
  obtain ⟨l', hl', e⟩ := List.sublist_map_iff.1 hs
  match l', e with
  | [x, y, z], e =>
    simp only [List.map_cons, List.map_nil, List.cons.injEq, and_true] at e
    obtain ⟨rfl, rfl, rfl⟩ := e
    have : x = z := mul_left_cancel₀ hq.ne' hac
    rw [h x y z hl' this]

/-! ### Chances -/

mutual
theorem chance_reweighted {vars vars' : List (Str × Cmd)} {being : List Str} {c c' : Cmd} {P : Distr Str}
    (hv : ReweightedVars vars vars') (hc : Reweighted c c') : Chance E vars being c P → Chance E vars' being c' P
  | .cmd h1 h2 => .cmd (by rw [hc.method]; exact h1) (chanceIn_reweighted hv hc h2)
  | .access h1 h2 h3 => by
      obtain ⟨d', rfl, hd⟩ := reweighted_access hc
      obtain ⟨c1, hc1, hr⟩ := reweighted_resolves hv hd h1
      exact .access hr h2 (chance_reweighted hv hc1 h3)
theorem chanceIn_reweighted {vars vars' : List (Str × Cmd)} {being : List Str} {c c' : Cmd} {P : Distr Str}
    (hv : ReweightedVars vars vars') (hc : Reweighted c c') : ChanceIn E vars being c P → ChanceIn E vars' being c' P
  | .lit => by rw [reweighted_lit hc]; exact .lit
  | .seq (N := N) (Ds := Ds) (sep := sep) (m := m) h1 h2 => by
      obtain ⟨toks', rfl, ht⟩ := reweighted_seq hc
      obtain ⟨toks'', N', ψ, h3, hN, h4, h5⟩ := chanceAssign_reweighted hv ht h1
      have := ChanceIn.seq (E := E) (vars := vars') (being := being) (sep := sep) (m := m) (Ds := fun new => Ds (ψ new)) h4 fun x hx =>
        have hx' : (ψ x.1, x.2) ∈ N := by rw [hN]; exact List.mem_map.2 ⟨x, hx, rfl⟩
        chanceAll_reweighted ((h5 x hx).append hv) h3 (h2 _ hx')
      rw [hN, Distr.map_bind']
      exact this
  | .variant (opts := opts) (Ds := Ds) (lo := lo) (hi := hi) (sep := sep) (m := m) h1 h2 h3 h4 h5 h6 => by
      obtain ⟨q, opts', rfl, hq, ho, hn⟩ := reweighted_variant hc
      have hw := ho.weights
      have h7 : ∀ p', p' ∈ opts' → ∃ p ∈ opts, p'.2 = q * p.2 := by
        intro p' hp'
        have : p'.2 ∈ opts'.map (·.2) := List.mem_map.2 ⟨p', hp', rfl⟩
        rw [hw, List.map_map] at this
        obtain ⟨p, hp, e⟩ := List.mem_map.1 this
        exact ⟨p, hp, e.symm⟩
      have := ChanceIn.variant (E := E) (lo := lo) (hi := hi) (sep := sep) (m := m) (by rw [ho.length]; exact h1) h2
        (by intro p' hp'
            obtain ⟨p, hp, e⟩ := h7 p' hp'
            rw [e]; exact mul_nonneg hq.le (h3 p hp))
        (by have e : total opts' = q * total opts := by
              have := total_times q (opts.map fun x => ((), x.2))
              unfold total at this ⊢
              simp only [List.map_map, Function.comp_def] at this hw
              rw [hw, this]
            rw [e]; exact mul_pos hq h4)
        (fun hk => ⟨by
            intro p' hp'
            obtain ⟨p, hp, e⟩ := h7 p' hp'
            rw [e]; exact mul_pos hq ((h5 hk).1 p hp), hn hk (h5 hk).2.1, by
            rw [hw]; exact together_times hq (h5 hk).2.2⟩)
        (chanceAll_reweighted hv ho.all h6)
      have e : Ds.zip (opts'.map (·.2)) = (Ds.zip (opts.map (·.2))).map fun x => (x.1, q * x.2) := by
        rw [hw, List.zip_map_right]
        rfl
      rw [e, variantDist_times hq] at this
      exact this
  | .variantSingle h1 h2 => by
      obtain ⟨q, opts', rfl, hq, ho, hn⟩ := reweighted_variant hc
      cases ho with
      | cons hc' ho =>
        cases ho
        exact .variantSingle (by
          rintro ⟨path, m, v, wt, e⟩
          simp only [List.cons.injEq, Prod.mk.injEq, and_true] at e
          obtain ⟨rfl, -⟩ := e
          cases hc' with
          | same => exact h1 ⟨_, _, _, _, rfl⟩
          | wild => exact h1 ⟨_, _, _, _, rfl⟩
          | wildPath => exact h1 ⟨_, _, _, _, rfl⟩) (chance_reweighted hv hc' h2)
  | .variantWild h1 h2 h3 h4 => by
      obtain ⟨q, opts', rfl, hq, ho, hn⟩ := reweighted_variant hc
      cases ho with
      | cons hc' ho =>
        cases ho
        obtain ⟨path', v', rfl, hp, hv'⟩ := reweighted_wild hc'
        exact .variantWild (chancePrompt_reweighted hv hp h1) h2 h3 fun x hx => chanceIn_reweighted hv .same (h4 x hx)
  | .wild h1 h2 h3 h4 h5 => by
      obtain ⟨path', v', rfl, hp, hv'⟩ := reweighted_wild hc
      exact .wild (chancePrompt_reweighted hv hp h1) h2 h3 h4 fun x hx i hi =>
        chancePrompt_reweighted (hv'.append hv) .same (h5 x hx i hi)
  | .wildMissing h1 h2 => by
      obtain ⟨path', v', rfl, hp, hv'⟩ := reweighted_wild hc
      cases hp
      exact .wildMissing (chancePrompt_reweighted hv .same h1) h2
  | .wrap h1 h2 => by
      obtain ⟨w', i', rfl, hw, hi⟩ := reweighted_wrap hc
      exact .wrap (chance_reweighted hv hw h1) (chance_reweighted hv hi h2)
theorem chanceAll_reweighted {vars vars' : List (Str × Cmd)} {being : List Str} {cs cs' : List Cmd} {Ps : List (Distr Str)}
    (hv : ReweightedVars vars vars') (hc : ReweightedAll cs cs') : ChanceAll E vars being cs Ps → ChanceAll E vars' being cs' Ps
  | .nil => by cases hc; exact .nil
  | .cons h1 h2 => by
      cases hc with
      | cons ha hb => exact .cons (chance_reweighted hv ha h1) (chanceAll_reweighted hv hb h2)
theorem chancePrompt_reweighted {vars vars' : List (Str × Cmd)} {being : List Str} {p p' : Prompt} {P : Distr Str}
    (hv : ReweightedVars vars vars') (hc : ReweightedPath p p') : ChancePrompt E vars being p P → ChancePrompt E vars' being p' P
  | .text h1 h2 h3 => by
      cases hc
      exact .text h1 h2 (chance_reweighted hv .same h3)
  | .cmd h1 h2 => by
      cases hc with
      | same => exact .cmd h1 (chance_reweighted hv .same h2)
      | cmd h => exact .cmd (by rw [h.truthy]; exact h1) (chance_reweighted hv h h2)
theorem chanceAssign_reweighted {vars vars' : List (Str × Cmd)} {being : List Str} {cs cs' toks : List Cmd}
    {N : Distr (List (Str × Cmd))} (hv : ReweightedVars vars vars') (hc : ReweightedAll cs cs') :
    ChanceAssign E vars being cs toks N → ∃ toks' N' ψ, ReweightedAll toks toks' ∧ N = Distr.map ψ N' ∧
      ChanceAssign E vars' being cs' toks' N' ∧ ∀ x ∈ N', ReweightedVars (ψ x.1) x.1
  | .nil => by
      cases hc
      exact ⟨[], .sure [], id, .nil, rfl, .nil, by intro x hx; cases List.mem_singleton.1 hx; exact .nil⟩
  | .tok h1 h2 => by
      cases hc with
      | cons ha hb =>
        obtain ⟨toks', N', ψ, h3, hN, h4, h5⟩ := chanceAssign_reweighted hv hb h2
        exact ⟨_, N', ψ, .cons ha h3, hN, .tok (reweighted_not_assign ha h1) h4, h5⟩
  | .keep (n := n) (c := c) h1 h2 => by
      cases hc with
      | cons ha hb =>
        obtain ⟨v', rfl, hv'⟩ := reweighted_assign ha
        obtain ⟨toks', N', ψ, h3, hN, h4, h5⟩ := chanceAssign_reweighted hv hb h2
        rcases reweighted_lookup hv _ with ⟨h6, -⟩ | ⟨c1, c2, hc, h6, h7⟩
        · rw [h1] at h6; cases h6
        · rw [h1] at h6; obtain rfl := Option.some.inj h6
          refine ⟨toks', _, fun l => ψ l.dropLast ++ [(n, c)], h3, ?_, .keep h7 h4, ?_⟩
          · rw [hN, Distr.map_map', Distr.map_map']
            simp
          · intro x hx
            obtain ⟨y, hy, rfl⟩ := List.mem_map.1 hx
            simp only [List.dropLast_concat]
            exact (h5 y hy).append (.cons hc .nil)
  | .plain (n := n) (v := v) h1 h2 => by
      cases hc with
      | cons ha hb =>
        obtain ⟨v', rfl, hv'⟩ := reweighted_assign ha
        obtain ⟨toks', N', ψ, h3, hN, h4, h5⟩ := chanceAssign_reweighted hv hb h2
        refine ⟨toks', _, fun l => ψ l.dropLast ++ [(n, v)], h3, ?_, .plain ?_ h4, ?_⟩
        · rw [hN, Distr.map_map', Distr.map_map']
          simp
        · refine h1.imp id fun h => ?_
          rcases reweighted_lookup hv n with ⟨-, h7⟩ | ⟨c1, c2, hc, h6, h7⟩
          · exact h7
          · rw [h] at h6; cases h6
        · intro x hx
          obtain ⟨y, hy, rfl⟩ := List.mem_map.1 hx
          simp only [List.dropLast_concat]
          exact (h5 y hy).append (.cons hv' .nil)
  | .literal (n := n) (s := s) (m := m) h1 h2 => by
      cases hc with
      | cons ha hb =>
        obtain ⟨v', rfl, hv'⟩ := reweighted_assign ha
        cases reweighted_lit hv'
        obtain ⟨toks', N', ψ, h3, hN, h4, h5⟩ := chanceAssign_reweighted hv hb h2
        refine ⟨toks', _, fun l => ψ l.dropLast ++ [(n, .lit s m)], h3, ?_, .literal ?_ h4, ?_⟩
        · rw [hN, Distr.map_map', Distr.map_map']
          simp
        · refine h1.imp id fun h => ?_
          rcases reweighted_lookup hv n with ⟨-, h7⟩ | ⟨c1, c2, hc, h6, h7⟩
          · exact h7
          · rw [h] at h6; cases h6
        · intro x hx
          obtain ⟨y, hy, rfl⟩ := List.mem_map.1 hx
          simp only [List.dropLast_concat]
          exact (h5 y hy).append (.cons .same .nil)
  | .immediate (n := n) h1 hl h2 h2' => by
      cases hc with
      | cons ha hb =>
        obtain ⟨v', rfl, hv'⟩ := reweighted_assign ha
        obtain ⟨toks', N', ψ, h3, hN, h4, h5⟩ := chanceAssign_reweighted hv hb h2'
        refine ⟨toks', _, fun l => ψ l.dropLast ++ l.getLast?.toList, h3, ?_,
          .immediate ?_ (reweighted_not_lit hv' hl) (chance_reweighted hv hv' h2) h4, ?_⟩
        · rw [hN, Distr.bind_map']
          simp [Distr.map_map']
        · refine h1.imp id fun h => ?_
          rcases reweighted_lookup hv n with ⟨-, h7⟩ | ⟨c1, c2, hc, h6, h7⟩
          · exact h7
          · rw [h] at h6; cases h6
        · intro x hx
          obtain ⟨z, hz, hx⟩ := List.mem_flatMap.1 hx
          obtain ⟨y', hy', rfl⟩ := List.mem_map.1 hx
          obtain ⟨y, hy, rfl⟩ := List.mem_map.1 hy'
          simp only [List.dropLast_concat, List.getLast?_concat, Option.toList_some]
          exact (h5 y hy).append (.cons .same .nil)
end

end Verif
