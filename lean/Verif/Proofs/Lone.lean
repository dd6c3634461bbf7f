import Verif.Spec.Lone
import Verif.Proofs.Laws
import Verif.Proofs.SameTexts
import Verif.Proofs.Limit
/-! A wildcard alone in braces. -/

namespace Verif
open Spec
variable {W : Type} {E : Env W}

theorem parsesAll_det {l : List Str} {cs cs' : List Cmd} (h : ParsesAll E l cs) (h' : ParsesAll E l cs') : cs = cs' := by
  induction h generalizing cs' with
  | nil => cases h'; rfl
  | cons h1 _ ih =>
    cases h' with
    | cons h2 h3 => rw [h1] at h2; cases h2; rw [ih h3]

theorem parsesAll_mapM {l : List Str} {cs : List Cmd} (h : ParsesAll E l cs) :
    l.mapM (fun v => (E.parse v).map (fun c => (c, (1 : Rat)))) = .ok (cs.map fun c => (c, 1)) := by
  induction h with
  | nil => rfl
  | cons h1 _ ih => rw [List.mapM_cons, h1, ih]; rfl

theorem gives_det [Inhabited W] {wc : Str} {l l' : List Item} (h : Spec.Gives E wc l) (h' : Spec.Gives E wc l') : l = l' := by
  have := (h default).symm.trans (h' default)
  cases this; rfl

/-! ### Lists -/

theorem plainName_lists {name : Str} (h : PlainName E name) {vars : List (Str × Cmd)} {being outs : List Str} :
    ListsPrompt E vars being (.inl name) outs ↔ outs = [name] := by
  constructor
  · intro hl
    cases hl with
    | none => exact absurd rfl h.nonempty
    | text _ h1 h2 =>
      rw [h.literal] at h1
      cases h1
      cases h2
      simp only [List.map_cons, List.map_nil, h.squashed]
  · rintro rfl
    have : [name] = [name].map (squashIf E.ignoreWs) := by simp only [List.map_cons, List.map_nil, h.squashed]
    rw [this]
    exact .text h.nonempty h.literal (.lit (.inl rfl))

theorem lists_unfold [Inhabited W] {name : Str} {lo hi : Int} {sep : Str} {m m' : Option Method} {v : List (Str × Cmd)} {wt : Rat}
    {c : Cmd} (hn : PlainName E name) (hw : ChoiceOfValues E name lo hi sep m c) {vars : List (Str × Cmd)} {being outs : List Str} :
    Lists E vars being (.variant [(.wild (.inl name) m' v, wt)] lo hi sep m) outs ↔ Lists E vars being c outs := by
  cases hw with
  | mk hg hp =>
    constructor
    · intro h
      cases h with
      | variant _ _ h => exact absurd ⟨_, _, _, _, rfl⟩ h
      | variantWild hm h1 h2 h3 h4 =>
        have h5 := (plainName_lists hn).1 h1
        cases h5
        obtain ⟨w', h6⟩ := h2 default
        rw [hg default] at h6
        cases h6
        cases parsesAll_det hp h3
        exact lists_method h4 hm
    · intro h
      refine .variantWild (lists_finite h) ((plainName_lists hn).2 rfl) (fun w => ⟨w, hg w⟩) hp ?_
      exact lists_method h (.inl rfl)

/-! ### Chances -/

theorem chanceIn_method {opts : List (Cmd × Rat)} {lo hi : Int} {sep : Str} {m m' : Option Method} {vars : List (Str × Cmd)}
    {being : List Str} {P : Distr Str} (h : ChanceIn E vars being (.variant opts lo hi sep m) P) :
    ChanceIn E vars being (.variant opts lo hi sep m') P := by
  cases h with
  | variant h1 h2 h3 h4 h5 h6 => exact .variant h1 h2 h3 h4 h5 h6
  | variantSingle h1 h2 => exact .variantSingle h1 h2
  | variantWild h1 h2 h3 h4 => exact .variantWild h1 h2 h3 h4

theorem sure_bind {α β : Type} (a : α) (f : α → Distr β) : Alike ((Distr.sure a).bind f) (f a) := by
  intro g
  simp [Distr.sure, Distr.bind]

theorem plainName_chance {name : Str} (h : PlainName E name) {vars : List (Str × Cmd)} {being : List Str} {P : Distr Str} :
    ChancePrompt E vars being (.inl name) P ↔ P = .sure name := by
  have hs : (Distr.sure name).map (fun s => if E.ignoreWs then squashWhitespace s else s) = Distr.sure name := by
    have := h.squashed
    unfold squashIf at this
    simp [Distr.sure, Distr.map, this]
  constructor
  · intro hl
    cases hl with
    | text _ h1 h2 =>
      rw [h.literal] at h1
      cases h1
      cases h2 with
      | cmd _ h3 => cases h3; exact hs
  · rintro rfl
    rw [← hs]
    exact .text h.nonempty h.literal (.cmd (by simp [Cmd.method]) .lit)

theorem chance_unfold [Inhabited W] {name : Str} {lo hi : Int} {sep : Str} {m m' : Option Method} {v : List (Str × Cmd)} {wt : Rat}
    {c : Cmd} (hn : PlainName E name) (hw : ChoiceOfValues E name lo hi sep m c) {vars : List (Str × Cmd)} {being : List Str}
    {P : Distr Str} (h : Chance E vars being (.variant [(.wild (.inl name) m' v, wt)] lo hi sep m) P) :
    ∃ P', Chance E vars being c P' ∧ Alike P P' := by
  cases hw with
  | mk hg hp =>
    cases h with
    | cmd hm h =>
      cases h with
      | variant h => simp at h
      | variantSingle h => exact absurd ⟨_, _, _, _, rfl⟩ h
      | variantWild h1 h2 h3 h4 =>
        have h5 := (plainName_chance hn).1 h1
        cases h5
        have hx : (name, (1 : Rat)) ∈ Distr.sure name := List.mem_singleton.2 rfl
        have h2 := h2 _ hx
        have h3 := h3 _ hx
        have h4 := h4 _ hx
        cases gives_det hg h2
        cases parsesAll_det hp h3
        exact ⟨_, .cmd hm (chanceIn_method h4), sure_bind _ _⟩

theorem chance_fold {name : Str} {lo hi : Int} {sep : Str} {m m' : Option Method} {v : List (Str × Cmd)} {wt : Rat}
    {c : Cmd} (hn : PlainName E name) (hw : ChoiceOfValues E name lo hi sep m c) {vars : List (Str × Cmd)} {being : List Str}
    {P : Distr Str} (h : Chance E vars being c P) :
    ∃ P', Chance E vars being (.variant [(.wild (.inl name) m' v, wt)] lo hi sep m) P' ∧ Alike P P' := by
  cases hw with
  | @mk items cs hg hp =>
    cases h with
    | cmd hm h =>
      refine ⟨_, .cmd hm (.variantWild (items := fun _ => items) (cs := fun _ => cs) (P := fun _ => P)
        ((plainName_chance hn).2 rfl) ?_ ?_ ?_), fun g => (sure_bind name (fun _ => P) g).symm⟩
      · intro x hx; cases List.mem_singleton.1 hx; exact hg
      · intro x hx; cases List.mem_singleton.1 hx; exact hp
      · intro x hx; exact chanceIn_method h

theorem lone_keeps [Inhabited W] : Keeps E (LoneWild E) where
  truthy h := by
    cases h with
    | unfold _ _ h => exact h
    | fold _ _ h => exact h.symm
  method h := by
    cases h with
    | unfold _ h => cases h; rfl
    | fold _ h => cases h; rfl
  stays h := by
    cases h with
    | unfold _ h => cases h; exact ⟨id, id⟩
    | fold _ h => cases h; exact ⟨id, id⟩
  lists h := by
    cases h with
    | unfold h1 h2 _ => exact (lists_unfold h1 h2).1
    | fold h1 h2 _ => exact (lists_unfold h1 h2).2
  chance h := by
    cases h with
    | unfold h1 h2 _ => exact chance_unfold h1 h2
    | fold h1 h2 _ => exact chance_fold h1 h2

/-! ### Step by step -/

/-- The prompts with as much fuel as it takes. -/
noncomputable def collectLim (E : Env W) : Nat → Gen → W → List Str × Stop W
  | 0, g, w => ([], .limit g w)
  | k + 1, g, w =>
    match (lim E).G g w with
    | .ok none w' => ([], .stop w')
    | .ok (some (v, g')) w' => let r := collectLim E k g' w'; (v :: r.1, r.2)
    | .err e w' => ([], .raised e w')
    | .fuel => ([], .fuel)

theorem collect_conv (k : Nat) (g : Gen) (w : W) : Ev fun n => collect E n k g w = collectLim E k g w := by
  induction k generalizing g w with
  | zero => exact Ev.of fun _ => rfl
  | succ k ih =>
    obtain ⟨N, hN⟩ := (lim_conv E).G g w
    rcases hr : (lim E).G g w with ⟨_ | ⟨v, g'⟩, w'⟩ | ⟨e, w'⟩ | _
    · exact ⟨N, fun n hn => by have := hN n hn; rw [hr] at this; simp only [collect, collectLim, nextG, this, hr]⟩
    · obtain ⟨N', hN'⟩ := ih g' w'
      refine ⟨max N N', fun n hn => ?_⟩
      have := hN n (by omega)
      rw [hr] at this
      simp only [collect, collectLim, nextG, this, hr, hN' n (by omega)]
    · exact ⟨N, fun n hn => by have := hN n hn; rw [hr] at this; simp only [collect, collectLim, nextG, this, hr]⟩
    · exact ⟨N, fun n hn => by have := hN n hn; rw [hr] at this; simp only [collect, collectLim, nextG, this, hr]⟩

theorem collect_same {g g' : Gen} (h : (lim E).G g = (lim E).G g') (k : Nat) (w : W) :
    Ev fun n => collect E n (k + 1) g w = collect E n (k + 1) g' w :=
  ((collect_conv (E := E) (k + 1) g w).and (collect_conv (E := E) (k + 1) g' w)).mp fun n h1 => by
    rw [h1.1, h1.2]
    simp only [collectLim, h]

theorem squash_same {g g' : Gen} (h : (lim E).G g = (lim E).G g') : (lim E).G (.squash g) = (lim E).G (.squash g') := by
  rw [lim_G, lim_G]
  simp only [stepG, h]

theorem start_method (ctx : Ctx) (opts : List (Cmd × Rat)) (lo hi : Int) (sep : Str) (m m' : Option Method) :
    (lim E).G (.start ctx (.variant opts lo hi sep m)) = (lim E).G (.start ctx (.variant opts lo hi sep m')) := by
  rw [lim_G, lim_G]
  rfl

theorem mbind_assoc {α β γ : Type} (x : M W α) (f : α → M W β) (g : β → M W γ) :
    (x >>= f) >>= g = x >>= fun a => f a >>= g := by
  funext w
  show M.bind (M.bind x f) g w = M.bind x (fun a => M.bind (f a) g) w
  unfold M.bind
  cases x w <;> rfl

theorem mbind_congr {α β : Type} (x : M W α) {f g : α → M W β} (h : ∀ a, f a = g a) : x >>= f = x >>= g := by
  rw [funext h]

theorem lone_step (ctx : Ctx) (path : Prompt) (m m' : Option Method) (v : List (Str × Cmd)) (wt : Rat) (lo hi : Int) (sep : Str) :
    (lim E).G (.start ctx (.variant [(.wild path m' v, wt)] lo hi sep m)) =
      (lim E).wildcardToVariant E ctx path none lo hi sep >>= fun c => (lim E).G (.start ctx c) := by
  rw [lim_G]
  simp only [stepG, startG, Recs.wildcardToVariant, mbind_assoc, M.mpure_bind, Cmd.mkVariant]
  exact mbind_congr _ fun wc => mbind_congr _ fun vals => mbind_congr _ fun opts => start_method ..

theorem plainName_first {name : Str} (h : PlainName E name) (ctx : Ctx) : (lim E).sampleFirst E ctx (.inl name) = pure name := by
  have hs : sampleGen E ctx (.inl name) =
      .ok (if E.ignoreWs then .squash (.start ctx (.lit name none)) else .start ctx (.lit name none)) := by
    have : name.isEmpty = false := by
      cases hn : name with
      | nil => exact absurd hn h.nonempty
      | cons => rfl
    simp only [sampleGen, this, h.literal]
    rfl
  have h1 : (lim E).G (.start ctx (.lit name none)) =
      pure (some (name, match ctx.method with | .comb => .done | _ => .rep name)) := by
    rw [lim_G]; simp only [stepG]; cases ctx.method <;> rfl
  have hsq := h.squashed
  unfold squashIf at hsq
  unfold Recs.sampleFirst Recs.next!
  rw [hs]
  by_cases hw : E.ignoreWs
  · simp only [hw, if_true] at hsq ⊢
    have : (lim E).G (.squash (.start ctx (.lit name none))) =
        pure (some (name, .squash (match ctx.method with | .comb => .done | _ => .rep name))) := by
      rw [lim_G]; simp only [stepG, h1, M.mpure_bind, hsq]
    show (lim E).G (.squash (.start ctx (.lit name none))) >>= _ >>= _ = _
    rw [this]; rfl
  · simp only [hw] at hsq ⊢
    show (lim E).G (.start ctx (.lit name none)) >>= _ >>= _ = _
    rw [h1]; rfl

theorem lone_same {name : Str} {lo hi : Int} {sep : Str} {m m' : Option Method} {v : List (Str × Cmd)} {wt : Rat} {c : Cmd}
    (hn : PlainName E name) (hw : ChoiceOfValues E name lo hi sep m c) (ctx : Ctx) :
    (lim E).G (.start ctx (.variant [(.wild (.inl name) m' v, wt)] lo hi sep m)) = (lim E).G (.start ctx c) := by
  rw [lone_step]
  unfold Recs.wildcardToVariant
  rw [plainName_first hn]
  cases hw with
  | mk hg hp =>
    funext w
    rw [M.mpure_bind, mbind_assoc, M.bind_of_ok (hg w), parsesAll_mapM hp]
    exact congrFun (start_method ctx _ _ _ sep none m) w

end Verif
