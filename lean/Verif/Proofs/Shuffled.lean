import Verif.Proofs.WorldSim
import Verif.Proofs.Sound
import Verif.Spec.Language
/-! Sampling from worlds that keep an invariant; the language of a template does not depend on the order in which
the wildcard manager lists its values. -/

namespace Verif
open Spec
variable {W W' α : Type}

/-! ## Worlds that keep an invariant -/

/-- `x` keeps the invariant `I`. -/
structure KeepsInv (I : W → Prop) (x : M W α) : Prop where
  ok : ∀ w a w', I w → x w = .ok a w' → I w'
  err : ∀ w e w', I w → x w = .err e w' → I w'

/-- `x` in the worlds that satisfy the invariant. -/
def restrictM (I : W → Prop) (x : M W α) (hx : KeepsInv I x) : M {w // I w} α := fun t =>
  match h : x t.val with
  | .ok a w => .ok a ⟨w, hx.ok _ _ _ t.2 h⟩
  | .err e w => .err e ⟨w, hx.err _ _ _ t.2 h⟩
  | .fuel => .fuel

theorem restrictM_sim (I : W → Prop) (x : M W α) (hx : KeepsInv I x) :
    SimW (fun w (t : {w // I w}) => w = t.val) x (restrictM I x hx) := by
  rintro _ t rfl
  unfold restrictM
  split
  · rename_i a w h
    show SameOutcome _ (x t.val) (.ok a _)
    generalize_proofs hp
    revert hp
    rw [h]
    exact fun _ => ⟨rfl, rfl⟩
  · rename_i e w h
    show SameOutcome _ (x t.val) (.err e _)
    generalize_proofs hp
    revert hp
    rw [h]
    exact fun _ => ⟨rfl, rfl⟩
  · rename_i h
    rw [h]
    trivial

theorem restrictM_ok {I : W → Prop} {x : M W α} {hx : KeepsInv I x} {t t' : {w // I w}} {a : α}
    (h : restrictM I x hx t = .ok a t') : x t.val = .ok a t'.val := by
  have := restrictM_sim I x hx t.val t rfl
  rw [h] at this
  cases e : x t.val with
  | ok b w => rw [e] at this; obtain ⟨rfl, rfl⟩ := this; rfl
  | err b w => rw [e] at this; exact this.elim
  | fuel => rw [e] at this; exact this.elim

/-- The invariant is kept by random draws and by lookups. -/
structure KeptBy (I : W → Prop) (E : Env W) : Prop where
  below : ∀ n w, I w → I (E.rng.below n w).2
  unit : ∀ w, I w → I (E.rng.unit w).2
  values : ∀ wc, KeepsInv I (E.getValues wc)

/-- The random source in the worlds that satisfy the invariant. -/
def restrictRng {I : W → Prop} {E : Env W} (h : KeptBy I E) : Rng {w // I w} where
  arith := E.rng.arith
  below n t := ((E.rng.below n t.val).1, ⟨(E.rng.below n t.val).2, h.below n _ t.2⟩)
  unit t := ((E.rng.unit t.val).1, ⟨(E.rng.unit t.val).2, h.unit _ t.2⟩)

/-- The environment in the worlds that satisfy the invariant. -/
def restrictEnv {I : W → Prop} {E : Env W} (h : KeptBy I E) : Env {w // I w} :=
  swapWorld E (restrictRng h) fun wc => restrictM I (E.getValues wc) (h.values wc)

theorem values_restrict {I : W → Prop} {E : Env W} (h : KeptBy I E) {wc : Str} {items : List Item}
    (hv : Values (restrictEnv h) wc items) : ∃ w w', I w ∧ E.getValues wc w = .ok items w' := by
  obtain ⟨t, t', e⟩ := hv
  exact ⟨t.val, t'.val, t.2, restrictM_ok (hx := h.values wc) e⟩

theorem sample_restrict {I : W → Prop} {E : Env W} (h : KeptBy I E) (fuel : Nat) (ctx : Ctx) (p : Prompt) (k : Nat)
    (t : {w // I w}) :
    (samplePrompts E fuel ctx p k t.val).1 = (samplePrompts (restrictEnv h) fuel ctx p k t).1 ∧
      SameStop (fun w (t : {w // I w}) => w = t.val) (samplePrompts E fuel ctx p k t.val).2
        (samplePrompts (restrictEnv h) fuel ctx p k t).2 := by
  unfold samplePrompts
  have e : sampleGen (restrictEnv h) ctx p = sampleGen E ctx p := rfl
  rw [e]
  cases sampleGen E ctx p with
  | error e => exact ⟨rfl, rfl, rfl⟩
  | ok g =>
    refine collect_sim (E := E) (R := fun w (t : {w // I w}) => w = t.val) (rng' := restrictRng h)
      (gv' := fun wc => restrictM I (E.getValues wc) (h.values wc)) ⟨rfl, ?_, ?_⟩ (fun wc => restrictM_sim I _ (h.values wc)) fuel k g t.val t rfl
    · rintro n _ t rfl; exact ⟨rfl, rfl⟩
    · rintro _ t rfl; exact ⟨rfl, rfl⟩

/-- Sampling keeps the invariant. -/
theorem sample_keeps {I : W → Prop} {E : Env W} (h : KeptBy I E) (fuel : Nat) (ctx : Ctx) (p : Prompt) (k : Nat)
    (w : W) (hw : I w) : I ((worldAfter (samplePrompts E fuel ctx p k w).2).getD w) := by
  have := (sample_restrict h fuel ctx p k ⟨w, hw⟩).2
  change SameStop _ (samplePrompts E fuel ctx p k w).2 _ at this
  generalize (samplePrompts E fuel ctx p k w).2 = x at this ⊢
  generalize (samplePrompts (restrictEnv h) fuel ctx p k ⟨w, hw⟩).2 = y at this
  cases x <;> cases y <;> simp only [SameStop] at this <;> try exact this.elim
  · obtain ⟨-, rfl⟩ := this; exact Subtype.property _
  · obtain rfl := this; exact Subtype.property _
  · obtain ⟨-, rfl⟩ := this; exact Subtype.property _
  · exact hw

/-- What is sampled from a world with the invariant can be derived with the answers of such worlds. -/
theorem sample_restrict_sound {I : W → Prop} {E : Env W} (h : KeptBy I E) (fuel : Nat) (ctx : Ctx) (p : Prompt)
    (k : Nat) (w : W) (hw : I w) :
    ∀ s ∈ (samplePrompts E fuel ctx p k w).1, LangPrompt (restrictEnv h) ctx.vars p s := by
  intro s hs
  rw [show (samplePrompts E fuel ctx p k w).1 = _ from (sample_restrict h fuel ctx p k ⟨w, hw⟩).1] at hs
  unfold samplePrompts at hs
  split at hs
  · simp at hs
  · rename_i g hg
    exact collect_good (sampleGen_GOk hg) _ s hs

/-! ## The order of the values -/

theorem iterateWeighted_perm {l m : List Item} (h : l.Perm m) : (iterateWeighted l).Perm (iterateWeighted m) :=
  h.flatMap_right _

theorem parsesAll_perm {E : Env W} {vs vs' : List Str} (h : vs.Perm vs') {cs : List Cmd} (hp : ParsesAll E vs cs) :
    ∃ cs', ParsesAll E vs' cs' ∧ cs.Perm cs' := by
  induction h generalizing cs with
  | nil => exact ⟨cs, hp, .refl _⟩
  | cons v _ ih =>
    cases hp with
    | cons h1 h2 =>
      obtain ⟨cs', h3, h4⟩ := ih h2
      exact ⟨_, .cons h1 h3, h4.cons _⟩
  | swap v v' l =>
    cases hp with
    | cons h1 h2 =>
      cases h2 with
      | cons h2 h3 => exact ⟨_, .cons h2 (.cons h1 h3), .swap _ _ _⟩
  | trans _ _ ih1 ih2 =>
    obtain ⟨cs1, h1, p1⟩ := ih1 hp
    obtain ⟨cs2, h2, p2⟩ := ih2 h1
    exact ⟨cs2, h2, p1.trans p2⟩

theorem singleWild_perm {o o' : List (Cmd × Rat)} (h : o.Perm o') (hs : SingleWild o') : o = o' := by
  obtain ⟨p, m, v, w, rfl⟩ := hs
  exact List.perm_singleton.1 h

theorem lang_variant_perm {E : Env W} {vars : List (Str × Cmd)} {o o' : List (Cmd × Rat)} (h : o.Perm o')
    {lo hi : Int} {sep : Str} {m : Option Method} {s : Str} (hl : Lang E vars (.variant o lo hi sep m) s) :
    Lang E vars (.variant o' lo hi sep m) s := by
  have ns : ¬ SingleWild o → ¬ SingleWild o' := fun n hs => n ((singleWild_perm h hs).symm ▸ hs)
  have ne : o ≠ [] → o' ≠ [] := by
    rintro n rfl
    exact n h.eq_nil
  cases hl with
  | variant h1 h2 h3 h4 h5 =>
    exact .variant (ns h1) (ne h2) (h3.trans (h.map _).subperm) (h.length_eq ▸ h4) h5
  | variantDry h1 h2 h3 h4 h5 h6 =>
    exact .variantDry (ns h1) (ne h2) (h3.trans (h.map _).subperm) (h.length_eq ▸ h4) h5 h6
  | variantSingle h1 h2 =>
    obtain rfl := List.perm_singleton.1 h.symm
    exact .variantSingle h1 h2
  | variantWild h1 h2 h3 h4 =>
    obtain rfl := List.perm_singleton.1 h.symm
    exact .variantWild h1 h2 h3 h4

theorem dry_variant_perm {E : Env W} {vars : List (Str × Cmd)} {o o' : List (Cmd × Rat)} (h : o.Perm o')
    {lo hi : Int} {sep : Str} {m : Option Method} (hl : Dry E vars (.variant o lo hi sep m)) :
    Dry E vars (.variant o' lo hi sep m) := by
  cases hl with
  | empty =>
    obtain rfl := List.perm_nil.1 h.symm
    exact .empty
  | single h1 h2 =>
    obtain rfl := List.perm_singleton.1 h.symm
    exact .single h1 h2
  | wild h1 h2 h3 h4 =>
    obtain rfl := List.perm_singleton.1 h.symm
    exact .wild h1 h2 h3 h4

/-- `E'` is `E` except for the world, and its manager lists what that of `E` lists, in another order. -/
structure Reorders (E : Env W) (E' : Env W') : Prop where
  parse : E.parse = E'.parse
  ignoreWs : E.ignoreWs = E'.ignoreWs
  unknown : E.unknown = E'.unknown
  toWildcard : E.toWildcard = E'.toWildcard
  values : ∀ wc items, Values E wc items → ∃ out, Values E' wc out ∧ items.Perm out

theorem Reorders.parses {E : Env W} {E' : Env W'} (h : Reorders E E') {vs : List Str} {cs : List Cmd}
    (hp : ParsesAll E vs cs) : ParsesAll E' vs cs := by
  induction hp with
  | nil => exact .nil
  | cons h1 _ ih => exact .cons (h.parse ▸ h1) ih

theorem Reorders.squashed {E : Env W} {E' : Env W'} (h : Reorders E E') {s t : Str} (hs : Squashed E s t) :
    Squashed E' s t := by
  cases hs with
  | same => exact .same
  | squash hw => exact .squash (h.ignoreWs ▸ hw)

theorem Reorders.prompt {E : Env W} {E' : Env W'} (h : Reorders E E') {vars : List (Str × Cmd)} {p : Prompt} {s : Str}
    (hl : LangPrompt E vars p s) : LangPrompt E' vars p s := by
  refine LangPrompt.rec (E := E)
    (motive_1 := fun vars c s _ => Lang E' vars c s)
    (motive_2 := fun vars cs strs _ => LangAll E' vars cs strs)
    (motive_3 := fun vars p s _ => LangPrompt E' vars p s)
    (motive_4 := fun vars toks toks' new _ => Assigned E' vars toks toks' new)
    (motive_5 := fun vars n v i o c _ => AssignedValue E' vars n v i o c)
    (motive_6 := fun vars c _ => Dry E' vars c)
    ?_ ?_ ?_ ?_ ?_ ?_ ?_ ?_ ?_ ?_ ?_ ?_ ?_ ?_ ?_ ?_ ?_ ?_ ?_ ?_ ?_ ?_ ?_ ?_ ?_ ?_ ?_ ?_ ?_ ?_ hl
  · intro vars s m; exact .lit
  · intro vars toks sep m toks' new strs _ _ iha ihl; exact .seq iha ihl
  · intro vars toks sep m toks' new strs _ _ iha ihl; exact .seqPad iha ihl
  · intro vars opts lo hi sep m cs strs h1 h2 h3 h4 _ ih; exact .variant h1 h2 h3 h4 ih
  · intro vars c wt lo hi sep m s h1 _ ih; exact .variantSingle h1 ih
  · intro vars opts lo hi sep m pre d post strs h1 h2 h3 h4 _ _ ih1 ih2; exact .variantDry h1 h2 h3 h4 ih1 ih2
  · intro vars path m' v wt lo hi sep m wc items cs s _ hv hp _ ih1 ih2
    obtain ⟨out, ho, hperm⟩ := h.values _ _ hv
    obtain ⟨cs', hp', pc⟩ := parsesAll_perm (iterateWeighted_perm hperm) (h.parses hp)
    refine .variantWild ih1 ho hp' ?_
    rw [← hperm.length_eq]
    exact lang_variant_perm (pc.map _) ih2
  · intro vars path m v wc items item s _ hv hi _ ih1 ih2
    obtain ⟨out, ho, hperm⟩ := h.values _ _ hv
    exact .wild ih1 ho (hperm.subset hi) ih2
  · intro vars p m v wc _ hv ih
    obtain ⟨out, ho, hperm⟩ := h.values _ _ hv
    obtain rfl := List.perm_nil.1 hperm.symm
    rw [h.toWildcard]
    exact .wildMissing ih ho
  · intro vars c m v wc wc' _ hv _ ih1 ih2
    obtain ⟨out, ho, hperm⟩ := h.values _ _ hv
    obtain rfl := List.perm_nil.1 hperm.symm
    rw [h.toWildcard]
    exact .wildMissingCmd ih1 ho ih2
  · intro vars name d c s hr _ ih; exact .access (h.unknown ▸ hr) ih
  · intro vars wr i m w s w' s' _ _ h1 h2 ih1 ih2; exact .wrap ih1 ih2 (h.squashed h1) (h.squashed h2)
  · intro vars; exact .nil
  · intro vars c cs s strs _ _ ih1 ih2; exact .cons ih1 ih2
  · intro vars p c s hne hp _ ih
    rw [h.ignoreWs]
    exact .text hne (h.parse ▸ hp) ih
  · intro vars c s ht _ ih
    rw [h.ignoreWs]
    exact .cmd ht ih
  · intro vars; exact .nil
  · intro vars c cs toks new hne _ ih; exact .tok hne ih
  · intro vars n v i o cs toks new c _ _ ih1 ih2; exact .set ih1 ih2
  · intro vars n v i c hl; exact .keep hl
  · intro vars n v o ho; exact .plain ho
  · intro vars n s m o ho; exact .literal ho
  · intro vars n v o s ho _ ih; exact .immediate ho ih
  · intro vars lo hi sep m; exact .empty
  · intro vars c wt lo hi sep m h1 _ ih; exact .single h1 ih
  · intro vars path m' v wt lo hi sep m wc items cs _ hv hp _ ih1 ih2
    obtain ⟨out, ho, hperm⟩ := h.values _ _ hv
    obtain ⟨cs', hp', pc⟩ := parsesAll_perm (iterateWeighted_perm hperm) (h.parses hp)
    refine .wild ih1 ho hp' ?_
    rw [← hperm.length_eq]
    exact dry_variant_perm (pc.map _) ih2
  · intro vars path m v wc items _ hv hi ih
    obtain ⟨out, ho, hperm⟩ := h.values _ _ hv
    refine .values ih ho ?_
    have := iterateWeighted_perm hperm
    rw [hi] at this
    exact List.perm_nil.1 this.symm
  · intro vars name d c hr _ ih; exact .access (h.unknown ▸ hr) ih
  · intro vars wr i m _ ih; exact .wrapper ih
  · intro vars wr i m _ ih; exact .inner ih

end Verif
