import Verif.Proofs.NoComb
import Verif.Proofs.Runs
import Verif.Spec.Productive
import Verif.Props.Choice
/-! Generators that never run dry. -/

namespace Verif
open Spec Props
variable {W : Type} {E : Env W}

/-- In every world the generator yields a text and remains so. -/
def Live (E : Env W) (g : Gen) : Prop :=
  ∃ L : Gen → Prop, L g ∧ ∀ g, L g → ∀ w, ∃ v g' w', NextG E g w (.ok (some (v, g')) w') ∧ L g'

/-- The same for combination samplers. -/
def LiveA (E : Env W) (a : Arr) : Prop :=
  ∃ L : Arr → Prop, L a ∧ ∀ a, L a → ∀ w, ∃ v a' w', NextA E a w (.ok (some (v, a')) w') ∧ L a'

theorem Live.out {g : Gen} (h : Live E g) (w : W) :
    ∃ v g' w', NextG E g w (.ok (some (v, g')) w') ∧ Live E g' := by
  obtain ⟨L, hg, hL⟩ := h
  obtain ⟨v, g', w', h1, h2⟩ := hL g hg w
  exact ⟨v, g', w', h1, L, h2, hL⟩

theorem LiveA.out {a : Arr} (h : LiveA E a) (w : W) :
    ∃ v a' w', NextA E a w (.ok (some (v, a')) w') ∧ LiveA E a' := by
  obtain ⟨L, hg, hL⟩ := h
  obtain ⟨v, g', w', h1, h2⟩ := hL a hg w
  exact ⟨v, g', w', h1, L, h2, hL⟩

theorem Live.coind {P : Gen → Prop} {g : Gen} (hg : P g)
    (h : ∀ g, P g → ∀ w, ∃ v g' w', NextG E g w (.ok (some (v, g')) w') ∧ (P g' ∨ Live E g')) :
    Live E g := by
  refine ⟨fun g => P g ∨ Live E g, Or.inl hg, ?_⟩
  rintro g (hg | hg) w
  · exact h g hg w
  · obtain ⟨v, g', w', h1, h2⟩ := hg.out w
    exact ⟨v, g', w', h1, Or.inr h2⟩

theorem LiveA.coind {P : Arr → Prop} {a : Arr} (ha : P a)
    (h : ∀ a, P a → ∀ w, ∃ v a' w', NextA E a w (.ok (some (v, a')) w') ∧ (P a' ∨ LiveA E a')) :
    LiveA E a := by
  refine ⟨fun a => P a ∨ LiveA E a, Or.inl ha, ?_⟩
  rintro g (hg | hg) w
  · exact h g hg w
  · obtain ⟨v, g', w', h1, h2⟩ := hg.out w
    exact ⟨v, g', w', h1, Or.inr h2⟩

/-- It is enough to be live after the first step. -/
theorem Live.of_next {g : Gen}
    (h : ∀ w, ∃ v g' w', NextG E g w (.ok (some (v, g')) w') ∧ Live E g') : Live E g :=
  Live.coind (P := fun x => x = g) rfl (fun x hx w => by
    subst hx
    obtain ⟨v, g', w', h1, h2⟩ := h w
    exact ⟨v, g', w', h1, Or.inr h2⟩)

theorem Live.collect {g : Gen} (h : Live E g) (k : Nat) (w : W) :
    Ev fun n => (collect E n k g w).1.length = k ∧ ∃ g' w', (Verif.collect E n k g w).2 = .limit g' w' := by
  induction k generalizing g w with
  | zero => exact Ev.of fun n => ⟨rfl, g, w, rfl⟩
  | succ k ih =>
    obtain ⟨v, g', w', h1, h2⟩ := h.out w
    refine (Ev.and h1 (ih h2 w')).mp fun n ⟨h1, h2⟩ => ?_
    simp only [Verif.collect, nextG, h1]
    exact ⟨by simp [h2.1], h2.2⟩

/-! ### Closure lemmas -/

theorem live_rep (s : Str) : Live E (.rep s) :=
  Live.coind (P := fun g => g = .rep s) rfl (fun g hg w => by
    subst hg
    exact ⟨s, .rep s, w, NextG.of_step (Ev.of fun _ => rfl), Or.inl rfl⟩)

theorem next!_live {g : Gen} (h : Live E g) (w : W) : ∃ v g' w',
    (Ev fun n => (recs E n).next! g w = .ok (v, g') w') ∧ Live E g' := by
  obtain ⟨v, g', w', h1, h2⟩ := h.out w
  exact ⟨v, g', w', Ev.bind (f := fun _ _ => _) h1 (Ev.of fun _ => rfl), h2⟩

theorem rotate_live {gs : List Gen} (h : ∀ g ∈ gs, Live E g) (w : W) : ∃ vs gs' w',
    (Ev fun n => (recs E n).rotate gs w = .ok (vs, gs') w') ∧ ∀ g ∈ gs', Live E g := by
  induction gs generalizing w with
  | nil => exact ⟨[], [], w, Ev.of fun _ => rfl, by simp⟩
  | cons g gs ih =>
    obtain ⟨v, g', w1, h1, h2⟩ := next!_live (h g (by simp)) w
    obtain ⟨vs, gs', w2, h3, h4⟩ := ih (fun g hg => h g (by simp [hg])) w1
    refine ⟨v :: vs, g' :: gs', w2, ?_, ?_⟩
    · exact Ev.bind (f := fun n => _) h1 (Ev.bind (f := fun _ _ => _) h3 (Ev.of fun _ => rfl))
    · intro g hg
      rcases List.mem_cons.1 hg with rfl | hg
      · exact h2
      · exact h4 g hg

theorem live_seqNF {sep : Str} {gens : List Gen} (h : ∀ g ∈ gens, Live E g) :
    Live E (.seqNF sep gens) :=
  Live.coind (P := fun g => ∃ gens, g = .seqNF sep gens ∧ ∀ g ∈ gens, Live E g) ⟨gens, rfl, h⟩
    (fun g hg w => by
      obtain ⟨gens, rfl, h⟩ := hg
      obtain ⟨vs, gs', w', h1, h2⟩ := rotate_live h w
      exact ⟨_, _, w', NextG.of_step (Ev.bind (f := fun _ _ => _) h1 (Ev.of fun _ => rfl)),
        Or.inl ⟨gs', rfl, h2⟩⟩)

theorem live_zipWrap {wg ig : Gen} (hw : Live E wg) (hi : Live E ig) : Live E (.zipWrap wg ig) :=
  Live.coind (P := fun g => ∃ wg ig, g = .zipWrap wg ig ∧ Live E wg ∧ Live E ig) ⟨wg, ig, rfl, hw, hi⟩
    (fun g hg w => by
      obtain ⟨wg, ig, rfl, hw, hi⟩ := hg
      obtain ⟨v, wg', w1, h1, h2⟩ := hw.out w
      obtain ⟨v', ig', w2, h3, h4⟩ := hi.out w1
      exact ⟨_, _, w2, NextG.of_step (Ev.bind (f := fun n => _) h1
        (Ev.bind (f := fun _ _ => _) h3 (Ev.of fun _ => rfl))), Or.inl ⟨wg', ig', rfl, h2, h4⟩⟩)

theorem live_squash {g : Gen} (h : Live E g) : Live E (.squash g) :=
  Live.coind (P := fun x => ∃ g, x = .squash g ∧ Live E g) ⟨g, rfl, h⟩ (fun x hx w => by
    obtain ⟨g, rfl, h⟩ := hx
    obtain ⟨v, g', w1, h1, h2⟩ := h.out w
    exact ⟨_, _, w1, NextG.of_step (Ev.bind (f := fun n => _) h1 (Ev.of fun _ => rfl)),
      Or.inl ⟨g', rfl, h2⟩⟩)

theorem live_cycWild {q : List Gen} (hne : q ≠ []) (h : ∀ g ∈ q, Live E g) : Live E (.cycWild q) :=
  Live.coind (P := fun x => ∃ q, x = .cycWild q ∧ q ≠ [] ∧ ∀ g ∈ q, Live E g) ⟨q, rfl, hne, h⟩
    (fun x hx w => by
      obtain ⟨q, rfl, hne, h⟩ := hx
      cases q with
      | nil => exact absurd rfl hne
      | cons g q =>
        obtain ⟨v, g', w1, h1, h2⟩ := next!_live (h g (by simp)) w
        refine ⟨_, _, w1, NextG.of_step (Ev.bind (f := fun n => _) h1 (Ev.of fun _ => rfl)),
          Or.inl ⟨_, rfl, by simp, ?_⟩⟩
        intro x hx
        rcases List.mem_append.1 hx with hx | hx
        · exact h x (by simp [hx])
        · simp at hx; subst hx; exact h2)

theorem live_cycVar {sep : Str} {q : List Arr} (hne : q ≠ []) (h : ∀ a ∈ q, LiveA E a) :
    Live E (.cycVar sep q) :=
  Live.coind (P := fun x => ∃ q, x = .cycVar sep q ∧ q ≠ [] ∧ ∀ a ∈ q, LiveA E a) ⟨q, rfl, hne, h⟩
    (fun x hx w => by
      obtain ⟨q, rfl, hne, h⟩ := hx
      cases q with
      | nil => exact absurd rfl hne
      | cons g q =>
        obtain ⟨v, g', w1, h1, h2⟩ := (h g (by simp)).out w
        refine ⟨_, _, w1, NextG.of_step (Ev.bind (f := fun n => _) h1 (Ev.of fun _ => rfl)),
          Or.inl ⟨_, rfl, by simp, ?_⟩⟩
        intro x hx
        rcases List.mem_append.1 hx with hx | hx
        · exact h x (by simp [hx])
        · simp at hx; subst hx; exact h2)

theorem liveA_nil : LiveA E .nil :=
  LiveA.coind (P := fun g => g = .nil) rfl (fun g hg w => by
    subst hg
    exact ⟨[], .nil, w, NextA.of_step (Ev.of fun _ => rfl), Or.inl rfl⟩)

theorem liveA_node {g : Gen} {rest : Arr} (hg : Live E g) (hr : LiveA E rest) :
    LiveA E (.node g rest) :=
  LiveA.coind (P := fun x => ∃ g r, x = .node g r ∧ Live E g ∧ LiveA E r) ⟨g, rest, rfl, hg, hr⟩
    (fun x hx w => by
      obtain ⟨g, r, rfl, hg, hr⟩ := hx
      obtain ⟨vs, r', w1, h1, h2⟩ := hr.out w
      obtain ⟨v', g', w2, h3, h4⟩ := hg.out w1
      exact ⟨_, _, w2, NextA.of_step (Ev.bind (f := fun n => _) h1
        (Ev.bind (f := fun _ _ => _) h3 (Ev.of fun _ => rfl))), Or.inl ⟨g', r', rfl, h4, h2⟩⟩)

theorem liveA_start {ctx : Ctx} {combo : List Cmd}
    (h : ∀ c ∈ combo, ∃ g, mkGen E.unknown ctx c = .ok g ∧ Live E g) : LiveA E (.start ctx combo) := by
  induction combo with
  | nil =>
    refine LiveA.coind (P := fun x => x = .start ctx []) rfl (fun x hx w => ?_)
    subst hx
    exact ⟨[], .nil, w, NextA.of_step (Ev.of fun _ => rfl), Or.inr liveA_nil⟩
  | cons c cs ih =>
    obtain ⟨g, hg, hl⟩ := h c (by simp)
    have hn := liveA_node hl (ih fun c hc => h c (by simp [hc]))
    refine LiveA.coind (P := fun x => x = .start ctx (c :: cs)) rfl (fun x hx w => ?_)
    subst hx
    obtain ⟨v, a', w1, h1, h2⟩ := hn.out w
    refine ⟨v, a', w1, NextA.of_step ?_, Or.inr h2⟩
    refine Ev.bind (a := g) (w1 := w) (f := fun n => _) (Ev.of fun n => ?_) h1
    rw [hg]; rfl

theorem mkGens_live {ctx : Ctx} {cs : List Cmd}
    (h : ∀ c ∈ cs, ∃ g, mkGen E.unknown ctx c = .ok g ∧ Live E g) :
    ∃ gs, mkGens E.unknown ctx cs = .ok gs ∧ ∀ g ∈ gs, Live E g := by
  induction cs with
  | nil => exact ⟨[], rfl, by simp⟩
  | cons c cs ih =>
    obtain ⟨g, hg, hl⟩ := h c (by simp)
    obtain ⟨gs, hgs, hls⟩ := ih (fun c hc => h c (by simp [hc]))
    refine ⟨g :: gs, by simp [mkGens, hg, hgs], ?_⟩
    intro x hx
    rcases List.mem_cons.1 hx with rfl | hx
    · exact hl
    · exact hls x hx

/-! ### Drawing -/

theorem countP_erase_pos (ws : List Rat) (y : Rat) :
    ws.countP (fun x => decide (0 < x)) ≤ (ws.erase y).countP (fun x => decide (0 < x)) + 1 := by
  by_cases h : y ∈ ws
  · have := (List.perm_cons_erase h).countP_eq (fun x => decide (0 < x))
    rw [this, List.countP_cons]
    split <;> omega
  · rw [List.erase_of_not_mem h]; omega

theorem chooseLoop_draws {α : Type} [DecidableEq α] (r : Rng W) (n : Nat) (vs : List α)
    (ws : List Rat) (w : W) (hl : ws.length = vs.length) (hnn : ∀ x ∈ ws, 0 ≤ x)
    (hn : n ≤ ws.countP (fun x => decide (0 < x))) :
    ∃ sel w', chooseLoop r n vs ws w = .ok sel w' := by
  induction n generalizing vs ws w with
  | zero => exact ⟨[], w, rfl⟩
  | succ n ih =>
    have hsum : 0 < ws.sum := by
      have hpos : 0 < ws.countP (fun x => decide (0 < x)) := by omega
      obtain ⟨x, hx, hx0⟩ := List.countP_pos_iff.1 hpos
      have h1 := (List.perm_cons_erase hx).sum_eq
      rw [h1, List.sum_cons]
      have h2 := List.sum_nonneg (l := ws.erase x) (fun y hy => hnn y (List.mem_of_mem_erase hy))
      have h3 : 0 < x := by simpa using hx0
      linarith
    obtain ⟨ch, w1, h1, h2, h3⟩ := choices_positive r vs ws hl hnn hsum 1 w
    cases ch with
    | nil => simp at h2
    | cons c cs =>
      obtain ⟨i, hi, hget, -⟩ := h3 c (by simp)
      have hmem : c ∈ vs := List.mem_of_getElem? hget
      have hidx : vs.idxOf c < ws.length := by rw [hl]; exact List.idxOf_lt_length_iff.2 hmem
      have hwm : ws.getD (vs.idxOf c) 0 ∈ ws := by
        rw [List.getD_eq_getElem?_getD, List.getElem?_eq_getElem hidx]
        exact List.getElem_mem _
      obtain ⟨sel, w', h4⟩ := ih (vs.erase c) (ws.erase (ws.getD (vs.idxOf c) 0)) w1
        (by rw [List.length_erase_of_mem hmem, List.length_erase_of_mem hwm, hl])
        (fun x hx => hnn x (List.mem_of_mem_erase hx))
        (by have := countP_erase_pos ws (ws.getD (vs.idxOf c) 0); omega)
      refine ⟨c :: sel, w', ?_⟩
      simp only [chooseLoop]
      rw [M.bind_of_ok h1]
      dsimp only
      rw [M.bind_of_ok h4]
      rfl

theorem choose_draws {α : Type} [DecidableEq α] (r : Rng W) (vs : List α) (ws : List Rat) (k : Int)
    (w : W) (hl : ws.length = vs.length) (h2 : 2 ≤ vs.length) (hd : DrawableWeights ws k) :
    ∃ sel w', chooseWithoutReplacement r vs ws k w = .ok sel w' := by
  have hk : k ≤ vs.length := by
    have := List.countP_le_length (p := fun x => decide ((0 : Rat) < x)) (l := ws)
    have := hd.2
    omega
  unfold chooseWithoutReplacement
  rw [if_neg (by omega)]
  have he : ws.isEmpty = false := by
    cases ws with
    | nil => simp at hl; omega
    | cons => rfl
  rw [he]
  simp only [Bool.false_eq_true, if_false]
  rw [if_neg (by simpa using hl.symm)]
  match vs, h2, hl with
  | a :: b :: l, _, hl =>
    exact chooseLoop_draws r _ _ ws w hl hd.1 (by have := hd.2; omega)

theorem randint_draws (r : Rng W) {a b : Int} (h : a ≤ b) (w : W) :
    ∃ k w', r.randint a b w = .ok k w' := by
  unfold Rng.randint
  rw [if_pos h]
  exact ⟨_, _, rfl⟩

theorem live_randVar {ctx : Ctx} {opts : List (Cmd × Rat)} {lo hi : Int} {sep : Str}
    (h2 : 2 ≤ opts.length) (h0 : 0 ≤ max lo hi)
    (hd : DrawableWeights (opts.map (·.2)) (max 0 (min (max lo hi) opts.length)))
    (h : ∀ p ∈ opts, ∃ g, mkGen E.unknown ctx p.1 = .ok g ∧ Live E g) :
    Live E (.randVar ctx opts lo hi sep) :=
  Live.coind (P := fun x => ∃ lo hi, x = .randVar ctx opts lo hi sep ∧ 0 ≤ max lo hi ∧
      DrawableWeights (opts.map (·.2)) (max 0 (min (max lo hi) opts.length)))
    ⟨lo, hi, rfl, h0, hd⟩ (fun x hx w => by
      clear hd h0
      obtain ⟨lo, hi, rfl, h0, hd⟩ := hx
      have hb : (adjustBounds opts.length lo hi).1 ≤ (adjustBounds opts.length lo hi).2 ∧
          0 ≤ (adjustBounds opts.length lo hi).1 ∧
          (adjustBounds opts.length lo hi).2 = max 0 (min (max lo hi) opts.length) ∧
          max 0 (min (max (adjustBounds opts.length lo hi).1 (adjustBounds opts.length lo hi).2)
            opts.length) = max 0 (min (max lo hi) opts.length) := by
        simp only [adjustBounds, normBounds]; omega
      obtain ⟨hb1, hb0, hb2, hb3⟩ := hb
      obtain ⟨k, w1, hk⟩ := randint_draws E.rng hb1 w
      have hk' := randint_ok hk
      obtain ⟨sel, w2, hsel⟩ := choose_draws E.rng (opts.map (·.1)) (opts.map (·.2))
        (min (adjustBounds opts.length lo hi).2 k) w1 (by simp) (by simpa using h2)
        ⟨hd.1, by have := hd.2; omega⟩
      have hsub := (choose_ok hsel).1
      obtain ⟨gs, hgs, hlive⟩ := mkGens_live (E := E) (ctx := ctx) (cs := sel) (fun c hc => by
        obtain ⟨p, hp, rfl⟩ := List.mem_map.1 (hsub.subset hc)
        exact h p hp)
      have hP : ∃ lo' hi', Gen.randVar ctx opts (adjustBounds opts.length lo hi).1
          (adjustBounds opts.length lo hi).2 sep = .randVar ctx opts lo' hi' sep ∧ 0 ≤ max lo' hi' ∧
          DrawableWeights (opts.map (·.2)) (max 0 (min (max lo' hi') opts.length)) :=
        ⟨_, _, rfl, by omega, by rw [hb3]; exact hd⟩
      have hgs' : ∀ w : W, (M.lift (mkGens E.unknown ctx sel) : M W _) w = .ok gs w := by
        intro w; rw [hgs]; rfl
      cases gs with
      | nil =>
        refine ⟨[], _, w2, NextG.of_step (Ev.of fun n => ?_), Or.inl hP⟩
        simp only [stepG]
        rw [M.bind_of_ok hk, M.bind_of_ok hsel, M.bind_of_ok (hgs' w2)]
        rfl
      | cons g gs =>
        obtain ⟨vs, gs', w3, h3, -⟩ := rotate_live hlive w2
        refine ⟨joined sep vs, _, w3, NextG.of_step (h3.mp fun n h3 => ?_), Or.inl hP⟩
        simp only [stepG]
        rw [M.bind_of_ok hk, M.bind_of_ok hsel, M.bind_of_ok (hgs' w2)]
        dsimp only
        rw [M.bind_of_ok h3]
        rfl)

/-- A weighted draw from wildcard values succeeds. -/
theorem weightedNext_draws (r : Rng W) {items : List Item} (hne : items ≠ [])
    (hd : DrawableItems items) (buf : List Str) (w : W) :
    ∃ v buf' w', weightedNext r items buf w = .ok (v, buf') w' := by
  unfold weightedNext
  by_cases hv : hasVariedWeights items = true
  · rw [hv]
    simp only [Bool.not_true, Bool.false_eq_true, if_false]
    cases buf with
    | cons v buf => exact ⟨v, buf, w, rfl⟩
    | nil =>
      have hpos : 0 < (items.map Item.w).sum := by
        obtain ⟨i, hi, hi0⟩ := hd.2
        have h1 := (List.perm_cons_erase (List.mem_map_of_mem (f := Item.w) hi)).sum_eq
        rw [h1, List.sum_cons]
        have h2 := List.sum_nonneg (l := (items.map Item.w).erase i.w) (fun y hy => by
          obtain ⟨j, hj, rfl⟩ := List.mem_map.1 (List.mem_of_mem_erase hy)
          exact hd.1 j hj)
        have h3 : 0 < i.w := hi0
        linarith
      obtain ⟨vs, w', h1, h2, -⟩ := choices_positive r (items.map Item.content) (items.map Item.w)
        (by simp) (fun x hx => by
          obtain ⟨j, hj, rfl⟩ := List.mem_map.1 hx
          exact hd.1 j hj) hpos 10 w
      cases vs with
      | nil => simp at h2
      | cons v vs =>
        refine ⟨v, vs, w', ?_⟩
        dsimp only [cumWeights]
        rw [M.bind_of_ok h1]
        rfl
  · have hv' : hasVariedWeights items = false := by simpa using hv
    rw [hv']
    simp only [Bool.not_false, if_true]
    have : ∃ v w', r.choice (items.map Item.content) w = .ok v w' := by
      unfold Rng.choice
      cases items with
      | nil => exact absurd rfl hne
      | cons i is => exact ⟨_, _, rfl⟩
    obtain ⟨v, w', h⟩ := this
    exact ⟨v, [], w', by rw [M.bind_of_ok h]; rfl⟩

theorem live_randWild {ctx : Ctx} {items : List Item} (hne : items ≠ []) (hd : DrawableItems items)
    (h : ∀ i ∈ items, ∃ g, sampleGen E ctx (.inl i.content) = .ok g ∧ Live E g) :
    Live E (.randWild ctx items []) :=
  Live.coind (P := fun x => ∃ buf, x = .randWild ctx items buf ∧
      ∀ x ∈ buf, x ∈ items.map Item.content) ⟨[], rfl, by simp⟩ (fun x hx w => by
    obtain ⟨buf, rfl, hb⟩ := hx
    obtain ⟨v, buf', w1, h1⟩ := weightedNext_draws E.rng hne hd buf w
    obtain ⟨hv, hb'⟩ := weightedNext_ok h1 hb
    obtain ⟨i, hi, rfl⟩ := List.mem_map.1 hv
    obtain ⟨g, hg, hl⟩ := h i hi
    obtain ⟨s, g', w2, h2, -⟩ := hl.out w1
    refine ⟨s, _, w2, NextG.of_step ?_, Or.inl ⟨buf', rfl, hb'⟩⟩
    refine Ev.bind (f := fun n => _) (Ev.of fun _ => h1) ?_
    refine Ev.bind (a := g) (w1 := w1) (f := fun n => _) (Ev.of fun _ => by rw [hg]; rfl) ?_
    exact Ev.bind (f := fun n => _) h2 (Ev.of fun _ => rfl))

/-! ### Productive templates are live -/

theorem live_start {ctx : Ctx} {c : Cmd} (hc : ∀ s m, c ≠ .lit s m)
    (h : ∀ w, ∃ g w', (Ev fun n => startG E (recs E n) ctx c w = .ok g w') ∧ Live E g) :
    Live E (.start ctx c) :=
  Live.of_next fun w => by
    obtain ⟨g, w1, h1, h2⟩ := h w
    obtain ⟨v, g', w2, h3, h4⟩ := h2.out w1
    refine ⟨v, g', w2, NextG.of_step ?_, h4⟩
    have : ∀ n, stepG E (recs E n) (.start ctx c) =
        (startG E (recs E n) ctx c >>= fun g => (recs E n).G g) := by
      intro n
      cases c with
      | lit s m => exact absurd rfl (hc s m)
      | _ => rfl
    simp only [this]
    exact Ev.bind (f := fun n => _) h1 h3

theorem sampleFirst_live {ctx : Ctx} {p : Prompt}
    (h : ∃ g, sampleGen E ctx p = .ok g ∧ Live E g) (w : W) :
    ∃ s w', (Ev fun n => (recs E n).sampleFirst E ctx p w = .ok s w') ∧ LangPrompt E ctx.vars p s := by
  obtain ⟨g, hg, hl⟩ := h
  obtain ⟨v, g', w1, h1, -⟩ := next!_live hl w
  have hev : Ev fun n => (recs E n).sampleFirst E ctx p w = .ok v w1 := by
    unfold Recs.sampleFirst
    refine Ev.bind (a := g) (w1 := w) (f := fun n => _) (Ev.of fun _ => by rw [hg]; rfl) ?_
    exact Ev.bind (f := fun n => _) h1 (Ev.of fun _ => rfl)
  obtain ⟨N, hN⟩ := hev
  exact ⟨v, w1, ⟨N, hN⟩, sampleFirst_good (recs_good E N) (hN N (Nat.le_refl _))⟩

theorem assigns_live {ctx : Ctx} {toks : List Cmd}
    (h : ∀ n v o, .assign n v true o ∈ toks → ∃ g, mkGen E.unknown ctx v = .ok g ∧ Live E g) (w : W) :
    ∃ x w', (Ev fun n => (recs E n).assigns E ctx toks w = .ok x w') := by
  induction toks generalizing w with
  | nil => exact ⟨_, _, Ev.of fun _ => rfl⟩
  | cons c toks ih =>
    have ih := fun w => ih (fun n v o hm => h n v o (by simp [hm])) w
    cases c with
    | assign name value imm ow =>
      have h1 : ∃ c w', Ev fun n => (recs E n).assign E ctx name value imm ow w = .ok c w' := by
        unfold Recs.assign
        cases (if ow = true then none else ctx.vars.lookup name) with
        | some v => exact ⟨_, _, Ev.of fun _ => rfl⟩
        | none =>
          cases imm with
          | false => exact ⟨_, _, Ev.of fun _ => rfl⟩
          | true =>
            simp only [if_true]
            obtain ⟨g, hg, hl⟩ := h name value ow (by simp)
            obtain ⟨v, g', w1, h1, -⟩ := next!_live hl w
            have key : Ev fun n => (do
                let g ← M.lift (mkGen E.unknown ctx value)
                let (v, _) ← (recs E n).next! g
                return Cmd.lit v none : M W Cmd) w = .ok (.lit v none) w1 := by
              refine Ev.bind (a := g) (w1 := w) (f := fun n => _) (Ev.of fun _ => by rw [hg]; rfl) ?_
              exact Ev.bind (f := fun n => _) h1 (Ev.of fun _ => rfl)
            cases value with
            | lit s m => exact ⟨_, _, Ev.of fun _ => rfl⟩
            | _ => exact ⟨_, _, key⟩
      obtain ⟨c, w1, h1⟩ := h1
      obtain ⟨x, w2, h2⟩ := ih w1
      exact ⟨_, _, Ev.bind (f := fun n => _) h1 (Ev.bind (f := fun n => _) h2 (Ev.of fun _ => rfl))⟩
    | _ =>
      obtain ⟨x, w2, h2⟩ := ih w
      exact ⟨_, _, Ev.bind (f := fun n => _) h2 (Ev.of fun _ => rfl)⟩

theorem mapM_of_parses {vs : List Str} {cs : List Cmd} (h : ParsesAll E vs cs) :
    (vs.mapM (fun v => (E.parse v).map (fun c => (c, (1 : Rat)))) : Except Err _) =
      .ok (cs.map fun c => (c, (1 : Rat))) := by
  induction h with
  | nil => rfl
  | cons h _ ih =>
    rw [List.mapM_cons, h, ih]
    rfl

theorem parses_det {vs : List Str} {cs cs' : List Cmd} (h : ParsesAll E vs cs)
    (h' : ParsesAll E vs cs') : cs = cs' := by
  induction h generalizing cs' with
  | nil => cases h'; rfl
  | cons h1 _ ih =>
    cases h' with
    | cons h2 h3 => rw [h1] at h2; cases h2; rw [ih h3]

theorem mkGen_live_of_start {ctx : Ctx} {c : Cmd} (hc : ∀ n d, c ≠ .access n d)
    (ha : ∀ n v i o, c ≠ .assign n v i o)
    (hw : ∀ a b m, c = .wrap a b m → nest ctx.method m ≠ .cyc)
    (h : Live E (.start ⟨nest ctx.method c.method, ctx.vars, ctx.being⟩ c)) :
    ∃ g, mkGen E.unknown ctx c = .ok g ∧ Live E g := by
  refine ⟨_, ?_, h⟩
  rw [mkGen_outcome (.target hc)]
  cases c with
  | assign n v i o => exact absurd rfl (ha n v i o)
  | wrap a b m =>
    have := hw a b m rfl
    simp only [outcomeGen, effMethod_eq_nest]
    rw [if_neg (by exact this)]
  | access n d => exact absurd rfl (hc n d)
  | _ => simp only [outcomeGen, effMethod_eq_nest]

theorem live_lit {ctx : Ctx} {s : Str} {m : Option Method} (hm : ctx.method ≠ .comb) :
    Live E (.start ctx (.lit s m)) :=
  Live.of_next fun w => ⟨s, .rep s, w, NextG.of_step (Ev.of fun n => by
    simp only [stepG]
    cases h : ctx.method with
    | comb => exact absurd h hm
    | _ => rfl), live_rep s⟩

mutual
theorem prod_live {m : Method} {vars : List (Str × Cmd)} {being : List Str} {c : Cmd}
    (h : Prod E m vars being c) :
    ∃ g, mkGen E.unknown ⟨m, vars, being⟩ c = .ok g ∧ Live E g := by
  match h with
  | .cmd hc hin =>
    refine mkGen_live_of_start hc ?_ ?_ (prodIn_live hin)
    · rintro n v i o rfl; cases hin
    · rintro a b m' rfl
      generalize hx : nest m (Cmd.wrap a b m').method = x at hin
      cases hin
      intro e; exact absurd (hx.symm.trans e) (by simp)
  | .access hr hb h' =>
    obtain ⟨g, hg, hl⟩ := prod_live h'
    refine ⟨g, ?_, hl⟩
    obtain ⟨o, ho⟩ := chain_total E.unknown vars (_ :: being) _
    rw [mkGen_outcome (ctx := ⟨m, vars, being⟩) (.step hr hb ho), ← hg,
      mkGen_outcome (ctx := ⟨m, vars, _ :: being⟩) ho]
    cases o <;> rfl
theorem prodIn_live {m : Method} {vars : List (Str × Cmd)} {being : List Str} {c : Cmd}
    (h : ProdIn E m vars being c) : Live E (.start ⟨m, vars, being⟩ c) := by
  match h with
  | .lit hm => exact live_lit hm
  | .seq (toks := toks) (sep := sep) hm himm htoks =>
    refine live_start (by simp) fun w => ?_
    have himm' : ∀ n v o, .assign n v true o ∈ toks →
        ∃ g, mkGen E.unknown ⟨m, vars, being⟩ v = .ok g ∧ Live E g :=
      fun n v o hmem => prod_live (himm n v o hmem)
    have htoks' : ∀ toks' new, Assigned E vars toks toks' new → ∀ c, c ∈ toks' →
        ∃ g, mkGen E.unknown ⟨m, new ++ vars, being⟩ c = .ok g ∧ Live E g :=
      fun toks' new hA c hc => prod_live (htoks toks' new hA c hc)
    obtain ⟨⟨toks', new⟩, w1, h1⟩ := assigns_live (ctx := ⟨m, vars, being⟩) himm' w
    obtain ⟨N, hN⟩ := id h1
    have hA : Assigned E vars toks toks' new := assigns_good (recs_good E N) (hN N (Nat.le_refl _))
    obtain ⟨gs, hgs, hl⟩ := mkGens_live (ctx := ⟨m, new ++ vars, being⟩) (htoks' toks' new hA)
    refine ⟨.seqNF sep gs, w1, ?_, live_seqNF hl⟩
    refine Ev.bind (f := fun n => _) h1 (Ev.of fun n => ?_)
    have hgs' : mkGens E.unknown (Ctx.withVars ⟨m, vars, being⟩ new) toks' = .ok gs := hgs
    cases m with
    | comb => exact absurd rfl hm
    | random =>
      dsimp only
      rw [hgs']; rfl
    | cyc =>
      dsimp only
      rw [hgs']; rfl
  | .single hs hc =>
    obtain ⟨g, hg, hl⟩ := prod_live hc
    refine live_start (by simp) fun w => ⟨g, w, Ev.of fun n => ?_, hl⟩
    rename_i c wt lo hi sep m'
    cases c with
    | wild p m v => exact absurd ⟨p, m, v, wt, rfl⟩ hs
    | _ => simp only [startG]; rw [hg]; rfl
  | .random (opts := opts) (lo := lo) (hi := hi) (sep := sep) h2 h0 hd hopts =>
    have hopts' : ∀ p ∈ opts, ∃ g, mkGen E.unknown ⟨.random, vars, being⟩ p.1 = .ok g ∧ Live E g :=
      fun p hp => prod_live (hopts p hp)
    refine live_start (by simp) fun w => ⟨.randVar ⟨.random, vars, being⟩ opts lo hi sep, w,
      Ev.of fun n => ?_, live_randVar h2 h0 hd hopts'⟩
    match opts, h2 with
    | (a, _) :: b :: l, _ => cases a <;> rfl
  | .cyc (opts := opts) (lo := lo) (hi := hi) (sep := sep) hs hne h0 hsel hopts =>
    have hopts' : ∀ p ∈ opts, ∃ g, mkGen E.unknown ⟨.cyc, vars, being⟩ p.1 = .ok g ∧ Live E g :=
      fun p hp => prod_live (hopts p hp)
    have hnn := adjust_nonneg opts.length lo hi
    refine live_start (by simp) fun w => ⟨.cycVar sep ((boundCombos (opts.map (·.1))
      (adjustBounds opts.length lo hi).1 (adjustBounds opts.length lo hi).2).map
        (fun p => Arr.start ⟨.cyc, vars, being⟩ p.2)), w, Ev.of fun n => ?_, live_cycVar ?_ ?_⟩
    · match opts, hne, hs with
      | [(c, wt)], _, hs =>
        cases c with
        | wild p m v => exact absurd ⟨p, m, v, wt, rfl⟩ hs
        | _ => rfl
      | (a, _) :: b :: l, _, _ => cases a <;> rfl
    · obtain ⟨cs, h1, h2, h3⟩ := hsel
      have : (cs.length, cs) ∈ boundCombos (opts.map (·.1)) (adjustBounds opts.length lo hi).1
          (adjustBounds opts.length lo hi).2 := by
        rw [mem_boundCombos hnn]
        refine ⟨?_, ?_, mem_getCombos.2 ⟨rfl, h1, h2⟩⟩
        · simp only [adjustBounds, normBounds, InBounds] at *; omega
        · simp only [adjustBounds, normBounds, InBounds] at *; omega
      exact List.ne_nil_of_mem (List.mem_map_of_mem this)
    · intro a ha
      obtain ⟨⟨b, cs⟩, hp, rfl⟩ := List.mem_map.1 ha
      rw [mem_boundCombos hnn] at hp
      refine liveA_start fun c hc => ?_
      obtain ⟨p, hp', rfl⟩ := List.mem_map.1 ((mem_getCombos.1 hp.2.2).2.2 c hc)
      exact hopts' p hp'
  | .variantWild (path := path) (m' := m') (lo := lo) (hi := hi) (sep := sep) hm hpath hans hparse hvar =>
    have hp := prodPrompt_live hpath
    have hvar' : ∀ wc items cs, LangPrompt E vars path wc → Values E wc items →
        ParsesAll E (iterateWeighted items) cs → Live E (.start ⟨m, vars, being⟩
          (Cmd.mkVariant (cs.map (fun c => (c, 1))) (min lo items.length) (min hi items.length) sep m')) :=
      fun wc items cs h1 h2 h3 => prodIn_live (hvar wc items cs h1 h2 h3)
    refine live_start (by simp) fun w => ?_
    obtain ⟨wc, w1, h1, hL⟩ := sampleFirst_live (ctx := ⟨m, vars, being⟩) hp w
    obtain ⟨items, w2, h2⟩ := hans wc hL w1
    have hV : Values E wc items := ⟨w1, w2, h2⟩
    obtain ⟨cs, hcs⟩ := hparse wc items hL hV
    refine ⟨_, w2, ?_, hvar' wc items cs hL hV hcs⟩
    refine Ev.bind (w1 := w2) (f := fun n => _) ?_ (Ev.of fun n => rfl)
    refine Ev.bind (f := fun n => _) h1 (Ev.of fun n => ?_)
    rw [M.bind_of_ok h2, mapM_of_parses hcs]
    rfl
  | .wild (path := path) (v := v) hm hpath hans hmiss hdraw hcyc hvals =>
    have hp := prodPrompt_live hpath
    have hmiss' : ∀ wc c, LangPrompt E vars path wc → Values E wc [] → path = .inr c →
        ∃ g, sampleGen E ⟨m, v ++ vars, being⟩ (.inr c) = .ok g ∧ Live E g :=
      fun wc c h1 h2 h3 => prodPrompt_live (hmiss wc c h1 h2 h3)
    have hvals' : ∀ wc items i, LangPrompt E vars path wc → Values E wc items → i ∈ items →
        ∃ g, sampleGen E ⟨m, v ++ vars, being⟩ (.inl i.content) = .ok g ∧ Live E g :=
      fun wc items i h1 h2 h3 => prodPrompt_live (hvals wc items i h1 h2 h3)
    refine live_start (by simp) fun w => ?_
    obtain ⟨wc, w1, h1, hL⟩ := sampleFirst_live (ctx := ⟨m, vars, being⟩) hp w
    obtain ⟨items, w2, h2⟩ := hans wc hL w1
    have hV : Values E wc items := ⟨w1, w2, h2⟩
    by_cases hne : items = []
    · subst hne
      cases path with
      | inl p =>
        refine ⟨.rep (E.toWildcard p), w2, ?_, live_rep _⟩
        exact Ev.bind (f := fun n => _) h1 (Ev.bind (f := fun n => _) (Ev.of fun _ => h2)
          (Ev.of fun _ => rfl))
      | inr c =>
        obtain ⟨s, w3, h3, -⟩ := sampleFirst_live (hmiss' wc c hL hV rfl) w2
        refine ⟨.rep (E.toWildcard s), w3, ?_, live_rep _⟩
        exact Ev.bind (f := fun n => _) h1 (Ev.bind (f := fun n => _) (Ev.of fun _ => h2)
          (Ev.bind (f := fun n => _) h3 (Ev.of fun _ => rfl)))
    · have hne' : items.isEmpty = false := by simpa using hne
      cases m with
      | comb => exact absurd rfl hm
      | random =>
        refine ⟨.randWild ⟨.random, v ++ vars, being⟩ items [], w2, ?_,
          live_randWild hne (hdraw wc items hL hV hne rfl) (fun i hi => hvals' wc items i hL hV hi)⟩
        refine Ev.bind (f := fun n => _) h1 (Ev.bind (f := fun n => _) (Ev.of fun _ => h2)
          (Ev.of fun _ => ?_))
        dsimp only
        rw [hne']
        rfl
      | cyc =>
        have hgens : ∀ l : List Str, (∀ x ∈ l, x ∈ iterateWeighted items) →
            ∃ gs, sampleGens E ⟨.cyc, v ++ vars, being⟩ l = .ok gs ∧ gs.length = l.length ∧
              ∀ g ∈ gs, Live E g := by
          intro l hl
          induction l with
          | nil => exact ⟨[], rfl, rfl, by simp⟩
          | cons x l ih =>
            obtain ⟨gs, h3, h4, h5⟩ := ih (fun x hx => hl x (by simp [hx]))
            obtain ⟨i, hi, rfl⟩ := mem_iterateWeighted (hl x (by simp))
            obtain ⟨g, h6, h7⟩ := hvals' wc items i hL hV hi
            refine ⟨g :: gs, by simp [sampleGens, h6, h3], by simp [h4], ?_⟩
            intro y hy
            rcases List.mem_cons.1 hy with rfl | hy
            · exact h7
            · exact h5 y hy
        obtain ⟨gs, h3, h4, h5⟩ := hgens _ (fun _ h => h)
        refine ⟨.cycWild gs, w2, ?_, live_cycWild ?_ h5⟩
        · refine Ev.bind (f := fun n => _) h1 (Ev.bind (f := fun n => _) (Ev.of fun _ => h2)
            (Ev.of fun _ => ?_))
          dsimp only
          rw [hne']
          simp only [Bool.false_eq_true, if_false, Ctx.withVars]
          rw [h3]
          rfl
        · have := hcyc wc items hL hV hne rfl
          intro e
          rw [e] at h4
          exact this (List.length_eq_zero_iff.1 h4.symm)
  | .wrap hw hi =>
    obtain ⟨wg, hwg, hwl⟩ := prod_live hw
    obtain ⟨ig, hig, hil⟩ := prod_live hi
    refine live_start (by simp) fun w => ⟨.zipWrap wg ig, w, Ev.of fun n => ?_, live_zipWrap hwl hil⟩
    simp only [startG]
    rw [hwg, hig]
    rfl
theorem prodPrompt_live {m : Method} {vars : List (Str × Cmd)} {being : List Str} {p : Prompt}
    (h : ProdPrompt E m vars being p) :
    ∃ g, sampleGen E ⟨m, vars, being⟩ p = .ok g ∧ Live E g := by
  match h with
  | .text hne hp hc =>
    obtain ⟨g, hg, hl⟩ := prod_live hc
    refine ⟨if E.ignoreWs then .squash g else g, ?_, ?_⟩
    · rename_i s c
      cases s with
      | nil => exact absurd rfl hne
      | cons a s => simp [sampleGen, hp, hg]
    · split
      · exact live_squash hl
      · exact hl
  | .cmd ht hc =>
    obtain ⟨g, hg, hl⟩ := prod_live hc
    refine ⟨if E.ignoreWs then .squash g else g, ?_, ?_⟩
    · simp [sampleGen, ht, hg]
    · split
      · exact live_squash hl
      · exact hl
end

end Verif
