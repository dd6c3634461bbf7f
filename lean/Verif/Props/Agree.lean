import Verif.Spec.Agree
import Verif.Props.Reachable
import Verif.Props.Combinatorial
import Mathlib.Data.List.Pairwise
/-!
# The sampling methods agree on which prompts a template has (C85)
-/

namespace Verif.Props
open Verif Verif.Spec
variable {W : Type}

theorem mem_product_iff {α : Type} {ls : List (List α)} {t : List α} :
    t ∈ product ls ↔ List.Forall₂ (· ∈ ·) t ls := by
  induction ls generalizing t with
  | nil => simp [product]
  | cons l ls ih =>
    simp only [product, List.mem_flatMap, List.mem_map]
    constructor
    · rintro ⟨x, hx, u, hu, rfl⟩
      exact .cons hx (ih.1 hu)
    · intro h
      cases h with
      | cons hx hu => exact ⟨_, hx, _, ih.2 hu, rfl⟩

theorem agree_not_single {opts : List (Cmd × Rat)} (h : ∀ p ∈ opts, SamePrompts p.1) : ¬ SingleWild opts := by
  rintro ⟨p, m, v, w, rfl⟩
  cases h _ (List.mem_singleton.2 rfl)

theorem agree_not_assign {c : Cmd} (h : SamePrompts c) : ∀ n v i o, c ≠ .assign n v i o := by
  rintro n v i o rfl
  cases h

theorem agree_not_dry {E : Env W} {c : Cmd} (h : SamePrompts c) : ∀ vars, ¬ Dry E vars c := by
  have vr : ∀ {opts lo hi sep m}, opts ≠ [] → (∀ p ∈ opts, SamePrompts p.1) → (∀ p ∈ opts, ∀ vars, ¬ Dry E vars p.1) →
      ∀ vars, ¬ Dry E vars (.variant opts lo hi sep m) := by
    intro opts lo hi sep m hne hp ih vars hd
    cases hd with
    | empty => exact hne rfl
    | single _ hd => exact ih _ (List.mem_singleton.2 rfl) _ hd
    | wild => cases hp _ (List.mem_singleton.2 rfl)
  induction h with
  | lit => intro _ h; cases h
  | seq => intro _ h; cases h
  | one _ hne _ hp ih => exact vr hne hp ih
  | several _ hl _ hp _ _ ih => exact vr (by rintro rfl; simp at hl) hp ih
  | wrap _ _ _ _ _ ih1 ih2 =>
    intro _ h
    cases h with
    | wrapper h => exact ih1 _ h
    | inner h => exact ih2 _ h

/-- The texts of a variant, see `enum`. -/
theorem mem_enum_variant {opts : List (Cmd × Rat)} {lo hi : Int} {sep : Str} {m : Option Method} {s : Str}
    (hne : opts ≠ []) : s ∈ enum false (.variant opts lo hi sep m) ↔
      ∃ cs strs, cs.length ∈ sizes opts.length lo hi ∧ cs.Nodup ∧ (∀ c ∈ cs, c ∈ opts.map (·.1)) ∧
        List.Forall₂ (fun x c => x ∈ enum false c) strs cs ∧ strs.Nodup ∧ s = joined sep strs := by
  have hinj : Function.Injective (fun c : Cmd => (c, enum false c)) := by
    intro a b h; exact (Prod.mk.inj h).1
  have e : (((sizes opts.length lo hi).flatMap fun k => selections k (enumO false opts)).flatMap
        fun sel => product (sel.map (·.2))) =
      (((sizes opts.length lo hi).flatMap fun k => selections k (opts.map (·.1))).flatMap
        fun sel => product (sel.map (enum false))) := by
    rw [enumO_eq]
    simp only [selections_map _ hinj]
    simp only [List.flatMap_assoc, List.flatMap_map, List.map_map, Function.comp_def]
  rw [enum, if_neg (by simpa using hne), e]
  simp only [List.mem_map, List.mem_eraseDups, List.mem_filter, List.mem_flatMap, decide_eq_true_eq, mem_selections,
    mem_product_iff, List.forall₂_map_right_iff]
  constructor
  · rintro ⟨strs, ⟨⟨cs, ⟨k, hk, rfl, hn, hc⟩, hf⟩, hd⟩, rfl⟩
    exact ⟨cs, strs, hk, hn, by simpa using hc, hf, hd, rfl⟩
  · rintro ⟨cs, strs, hk, hn, hc, hf, hd, rfl⟩
    exact ⟨strs, ⟨⟨cs, ⟨_, hk, rfl, hn, by simpa using hc⟩, hf⟩, hd⟩, rfl⟩

theorem langAll_forall {E : Env W} {vars : List (Str × Cmd)} {cs : List Cmd} {strs : List Str} :
    LangAll E vars cs strs ↔ List.Forall₂ (fun x c => Lang E vars c x) strs cs := by
  induction cs generalizing strs with
  | nil =>
    constructor
    · intro h; cases h; exact .nil
    · intro h; cases h; exact .nil
  | cons c cs ih =>
    constructor
    · intro h
      cases h with
      | cons h1 h2 => exact .cons h1 (ih.1 h2)
    · intro h
      cases h with
      | cons h1 h2 => exact .cons h1 (ih.2 h2)

/-- Every such template has a text. -/
theorem agree_lang_some {E : Env W} (vars : List (Str × Cmd)) {c : Cmd} (h : SamePrompts c) : ∃ s, Lang E vars c s := by
  have vr : ∀ {opts : List (Cmd × Rat)} {lo hi sep m}, opts ≠ [] → 0 ≤ max lo hi → (∀ p ∈ opts, SamePrompts p.1) →
      (∀ p ∈ opts, ∃ s, Lang E vars p.1 s) → ∃ s, Lang E vars (.variant opts lo hi sep m) s := by
    intro opts lo hi sep m hne hl hp ih
    have key : ∀ l : List (Cmd × Rat), (∀ p ∈ l, ∃ s, Lang E vars p.1 s) → ∃ strs, LangAll E vars (l.map (·.1)) strs := by
      intro l
      induction l with
      | nil => intro _; exact ⟨[], .nil⟩
      | cons a l ih =>
        intro h
        obtain ⟨s, hs⟩ := h a (by simp)
        obtain ⟨strs, h2⟩ := ih fun p hp => h p (by simp [hp])
        exact ⟨s :: strs, .cons hs h2⟩
    let k := (max 0 (min (min lo hi) opts.length)).toNat
    obtain ⟨strs, hs⟩ := key (opts.take k) fun p hp => ih p (List.mem_of_mem_take hp)
    refine ⟨_, .variant (agree_not_single hp) hne ?_ ?_ hs⟩
    · rw [List.map_take]; exact (List.take_sublist _ _).subperm
    · have : ((opts.take k).map (·.1)).length = min k opts.length := by simp
      rw [this]
      simp only [InBounds, k]
      omega
  induction h with
  | lit => exact ⟨_, .lit⟩
  | @seq toks m _ hp ih =>
    have key : ∀ l : List Cmd, (∀ c ∈ l, SamePrompts c) → (∀ c ∈ l, ∃ s, Lang E vars c s) →
        (∃ strs, LangAll E ([] ++ vars) l strs) ∧ Assigned E vars l l [] := by
      intro l
      induction l with
      | nil => intro _ _; exact ⟨⟨[], .nil⟩, .nil⟩
      | cons a l ih =>
        intro h0 h
        obtain ⟨s, hs⟩ := h a (by simp)
        obtain ⟨⟨strs, h2⟩, h3⟩ := ih (fun p hp => h0 p (by simp [hp])) fun p hp => h p (by simp [hp])
        exact ⟨⟨s :: strs, .cons hs h2⟩, .tok (agree_not_assign (h0 a (by simp))) h3⟩
    obtain ⟨⟨strs, h2⟩, h3⟩ := key toks hp ih
    exact ⟨_, .seq h3 h2⟩
  | one _ hne _ hp ih => exact vr hne (by decide) hp ih
  | several _ hl _ hp hb _ ih => exact vr (by rintro rfl; simp at hl) hb hp ih
  | wrap _ _ _ _ _ ih1 ih2 =>
    obtain ⟨w, hw⟩ := ih1
    obtain ⟨i, hi⟩ := ih2
    exact ⟨_, .wrap hw hi .same .same⟩

/-- Every text of the language is in the list. -/
theorem agree_listed {E : Env W} (hws : E.ignoreWs = false) {c : Cmd} (h : SamePrompts c) :
    ∀ vars s, Lang E vars c s → s ∈ enum false c := by
  have same : ∀ {a b}, Squashed E a b → b = a := by
    intro a b h
    cases h with
    | same => rfl
    | squash h => rw [hws] at h; cases h
  have some' : ∀ {c}, SamePrompts c → (∀ vars s, Lang E vars c s → s ∈ enum false c) → ∃ s, s ∈ enum false c := by
    intro c h ih
    obtain ⟨s, hs⟩ := agree_lang_some (E := E) [] h
    exact ⟨s, ih _ _ hs⟩
  induction h with
  | lit =>
    intro vars s h
    cases h
    simp [enum]
  | @seq toks m _ hp ih =>
    have key : ∀ vars strs, LangAll E vars toks strs → strs ∈ product (enumL false toks) := by
      intro vars strs h
      rw [enumL_eq, mem_product_iff, List.forall₂_map_right_iff]
      rw [langAll_forall] at h
      clear hp
      induction h with
      | nil => exact .nil
      | cons h1 _ ih' =>
        exact .cons (ih _ (by simp) _ _ h1) (ih' fun c hc => ih c (by simp [hc]))
    intro vars s h
    rw [enum]
    cases h with
    | seq hA hl =>
      obtain ⟨rfl, rfl⟩ := assigned_none hA fun c hc => agree_not_assign (hp c hc)
      exact List.mem_map.2 ⟨_, key _ _ hl, by simp [joined_nil_sep]⟩
    | seqPad hA hl =>
      obtain ⟨rfl, rfl⟩ := assigned_none hA fun c hc => agree_not_assign (hp c hc)
      exact List.mem_map.2 ⟨_, key _ _ hl, rfl⟩
  | @one opts sep m _ hne _ hp ih =>
    intro vars s h
    rw [mem_enum_variant hne]
    cases h with
    | variant _ _ hsub hb hl =>
      have hone : 1 ≤ opts.length := List.length_pos_iff.2 hne
      rename_i cs strs _ _
      have hlen : cs.length = 1 := by simp only [InBounds] at hb; omega
      obtain ⟨c, rfl⟩ := List.length_eq_one_iff.1 hlen
      have hmem : c ∈ opts.map (·.1) := hsub.subset (by simp)
      cases hl with
      | cons h1 h2 =>
        cases h2
        obtain ⟨p, hpm, rfl⟩ := List.mem_map.1 hmem
        refine ⟨[p.1], _, ?_, by simp, by simpa using hmem, .cons (ih p hpm _ _ h1) .nil, by simp, rfl⟩
        rw [mem_sizes]; simp; omega
    | variantSingle _ h1 =>
      refine ⟨_, [s], ?_, by simp, by simp, .cons (ih _ (List.mem_singleton.2 rfl) _ _ h1) .nil, by simp, rfl⟩
      rw [mem_sizes]; simp
    | variantDry _ _ hsub _ _ hd =>
      rename_i pre d post strs _ _ _ _
      obtain ⟨p, hpm, rfl⟩ := List.mem_map.1 (hsub.subset (show d ∈ pre ++ d :: post by simp))
      exact absurd hd (agree_not_dry (hp p hpm) _)
    | variantWild => cases hp _ (List.mem_singleton.2 rfl)
  | @several opts lo hi sep m _ h2 _ hp hb hdis ih =>
    have hne : opts ≠ [] := by rintro rfl; simp at h2
    have hsome : ∀ c ∈ opts.map (·.1), ∃ s, s ∈ enum false c := by
      intro c hc
      obtain ⟨p, hpm, rfl⟩ := List.mem_map.1 hc
      exact some' (hp p hpm) (ih p hpm)
    have hnd : (opts.map (·.1)).Nodup := by
      refine List.Pairwise.imp_of_mem ?_ hdis
      rintro a b ha _ h rfl
      obtain ⟨s, hs⟩ := hsome a ha
      exact h s hs hs
    intro vars s h
    rw [mem_enum_variant hne]
    cases h with
    | variant _ _ hsub hb' hl =>
      rename_i cs strs _ _
      have hcs : cs.Nodup := by
        obtain ⟨l, hl1, hl2⟩ := hsub
        exact hl1.nodup_iff.1 (hnd.sublist hl2)
      have hmem : ∀ c ∈ cs, c ∈ opts.map (·.1) := fun c hc => hsub.subset hc
      have hf : List.Forall₂ (fun x c => x ∈ enum false c) strs cs := by
        rw [langAll_forall] at hl
        clear hsub hb' hcs
        induction hl with
        | nil => exact .nil
        | @cons x c xs cs h1 _ ih' =>
          obtain ⟨p, hpm, rfl⟩ := List.mem_map.1 (hmem c (by simp))
          exact .cons (ih p hpm _ _ h1) (ih' fun c hc => hmem c (by simp [hc]))
      have hpw : ∀ a ∈ opts.map (·.1), ∀ b ∈ opts.map (·.1), a ≠ b → ∀ s, s ∈ enum false a → s ∉ enum false b := by
        have hsym : (opts.map (·.1)).Pairwise (fun a b => ∀ s, ¬ (s ∈ enum false a ∧ s ∈ enum false b)) :=
          hdis.imp fun h s hs => h s hs.1 hs.2
        intro a ha b hb hab s h1 h2
        haveI : Std.Symm (fun a b : Cmd => ∀ s, ¬ (s ∈ enum false a ∧ s ∈ enum false b)) :=
          ⟨fun _ _ h s hs => h s ⟨hs.2, hs.1⟩⟩
        exact hsym.forall ha hb hab s ⟨h1, h2⟩
      have hstr : strs.Nodup := by
        clear hsub hb' hl
        induction hf with
        | nil => exact .nil
        | @cons x c xs cs h1 h2 ih' =>
          rw [List.nodup_cons] at hcs ⊢
          refine ⟨fun hx => ?_, ih' hcs.2 fun c hc => hmem c (by simp [hc])⟩
          obtain ⟨c', hc', hx'⟩ : ∃ c' ∈ cs, x ∈ enum false c' := by
            clear ih' hcs hmem
            induction h2 with
            | nil => simp at hx
            | cons h3 _ ih4 =>
              rcases List.mem_cons.1 hx with rfl | hx
              · exact ⟨_, by simp, h3⟩
              · obtain ⟨c', h5, h6⟩ := ih4 hx
                exact ⟨c', by simp [h5], h6⟩
          exact hpw c (hmem c (by simp)) c' (hmem c' (by simp [hc'])) (by rintro rfl; exact hcs.1 hc') x h1 hx'
      refine ⟨cs, strs, ?_, hcs, hmem, hf, hstr, rfl⟩
      rw [mem_sizes]
      simp only [InBounds] at hb'
      omega
    | variantSingle => simp at h2
    | variantDry _ _ hsub _ _ hd =>
      rename_i pre d post strs _ _ _ _
      obtain ⟨p, hpm, rfl⟩ := List.mem_map.1 (hsub.subset (show d ∈ pre ++ d :: post by simp))
      exact absurd hd (agree_not_dry (hp p hpm) _)
    | variantWild => cases hp _ (List.mem_singleton.2 rfl)
  | wrap _ h1 h2 _ _ ih1 ih2 =>
    intro vars s h
    cases h with
    | wrap hw hi e1 e2 =>
      rw [same e1, same e2]
      simp only [enum, unlessEmpty, h1, h2, if_true, List.mem_flatMap, List.mem_map]
      exact ⟨_, ih1 _ _ hw, _, ih2 _ _ hi, by simp [squashIf]⟩

theorem agree_plain {c : Cmd} (h : SamePrompts c) : Plain false c := by
  induction h with
  | lit hf => exact .lit hf
  | seq hf hp ih =>
    refine .seq hf ih fun c hc _ h0 => ?_
    obtain ⟨s, hs⟩ := agree_lang_some (E := Demo.env) [] (hp c hc)
    have := agree_listed (E := Demo.env) rfl (hp c hc) _ _ hs
    rw [h0] at this
    simp at this
  | one hf _ _ _ ih => exact .variant hf ih
  | several hf _ _ _ _ _ ih => exact .variant hf ih
  | wrap hf _ _ _ _ ih1 ih2 => exact .wrap hf ih1 ih2

theorem agree_random {c : Cmd} (h : SamePrompts c) : PlainRandom c := by
  have fin : ∀ {m : Option Method}, Finite m → m ≠ some .cyc := by
    rintro m (h | h) <;> simp [h]
  induction h with
  | lit hf => exact .lit (fin hf)
  | seq hf _ ih => exact .seq (fin hf) ih
  | one hf hne hw _ ih => exact .variant (fin hf) hne hw ih (by decide) (fun _ => by decide)
  | several hf hl hw _ hb _ ih =>
    exact .variant (fin hf) (by rintro rfl; simp at hl) hw ih hb (by intro h; omega)
  | wrap hf _ _ _ _ ih1 ih2 => exact .wrap (fin hf) ih1 ih2

/-- **C85.**  Whatever the method, the context and the random source: every prompt of the template is in the list of
its combinatorial prompts. -/
theorem any_method_listed (E : Env W) (hws : E.ignoreWs = false) (c : Cmd) (h : SamePrompts c) (fuel : Nat) (ctx : Ctx)
    (k : Nat) (w : W) : ∀ s ∈ (samplePrompts E fuel ctx (.inr c) k w).1, s ∈ enum false c := by
  intro s hs
  have := sampling_sound E fuel ctx (.inr c) k w s hs
  generalize hp : (Sum.inr c : Prompt) = p at this
  cases this with
  | text => cases hp
  | cmd _ hl =>
    cases hp
    rw [hws]
    exact agree_listed hws h _ _ hl

/-- **C85.**  A text is a combinatorial prompt of the template if and only if random sampling returns it for some
outcomes of the draws. -/
theorem random_iff_combinatorial (E : Env Draws) (hE : E.rng = drawn) (hws : E.ignoreWs = false)
    (vars : List (Str × Cmd)) (being : List Str) (c : Cmd) (h : SamePrompts c) (hne : c.truthy = true) (s : Str) :
    (∃ (outcomes : Draws) (fuel : Nat),
      (samplePrompts E fuel ⟨.random, vars, being⟩ (.inr c) 1 outcomes).1 = [s]) ↔
    ∃ (fuel k : Nat) (w : Draws), s ∈ (samplePrompts E fuel ⟨.comb, vars, being⟩ (.inr c) k w).1 := by
  rw [random_exactly E hE hws vars being c (agree_random h) hne s]
  constructor
  · intro hl
    have hs := agree_listed hws h _ _ hl
    obtain ⟨N, hN⟩ := plain_enumerates E ⟨.comb, vars, being⟩ rfl c (by rw [hws]; exact agree_plain h) []
    refine ⟨N, (enum false c).length, [], ?_⟩
    rw [(hN N (Nat.le_refl _) _).1, hws]
    have e : squashIf false = id := by funext x; simp [squashIf]
    rw [unlessEmpty, if_pos hne, e, List.map_id, List.take_length]
    exact hs
  · rintro ⟨fuel, k, w, hs⟩
    have := sampling_sound E fuel _ (.inr c) k w s hs
    generalize hp : (Sum.inr c : Prompt) = p at this
    cases this with
    | text => cases hp
    | cmd _ hl =>
      cases hp
      rw [hws]
      exact hl

/-! ### Examples -/

/-- `{a|b}{2$$c|d{e|f}}`: all methods have the same prompts. -/
example : SamePrompts (.seq [.variant [(.lit c!"a" none, 1), (.lit c!"b" none, 2)] 1 1 c!"," none,
    .variant [(.lit c!"c" none, 1), (.seq [.lit c!"d" none, .variant [(.lit c!"e" none, 1), (.lit c!"f" none, 1)]
      1 1 c!"," none] [] none, 3)] 2 2 c!"," none] [] none) := by
  have nf : Spec.Finite none := Or.inl rfl
  refine .seq nf ?_
  simp only [List.mem_cons, List.not_mem_nil, or_false, forall_eq_or_imp, forall_eq]
  refine ⟨.one nf (by simp) (by simp) ?_, .several nf (by simp) (by simp) ?_ (by decide) (by decide +kernel)⟩
  · simp only [List.mem_cons, List.not_mem_nil, or_false, forall_eq_or_imp, forall_eq]
    exact ⟨.lit nf, .lit nf⟩
  · simp only [List.mem_cons, List.not_mem_nil, or_false, forall_eq_or_imp, forall_eq]
    refine ⟨.lit nf, .seq nf ?_⟩
    simp only [List.mem_cons, List.not_mem_nil, or_false, forall_eq_or_imp, forall_eq]
    refine ⟨.lit nf, .one nf (by simp) (by simp) ?_⟩
    simp only [List.mem_cons, List.not_mem_nil, or_false, forall_eq_or_imp, forall_eq]
    exact ⟨.lit nf, .lit nf⟩

/-- The condition on the options is needed: `{2$$a|a}` has the prompt `a,a` at random and none combinatorially. -/
example :
    (samplePrompts Demo.env 30 ⟨.random, [], []⟩
      (.inr (.variant [(.lit c!"a" none, 1), (.lit c!"a" none, 1)] 2 2 c!"," none)) 1 0).1 = [c!"a,a"] ∧
    (samplePrompts Demo.env 30 ⟨.comb, [], []⟩
      (.inr (.variant [(.lit c!"a" none, 1), (.lit c!"a" none, 1)] 2 2 c!"," none)) 1 0).1 = [] := by
  constructor <;> decide +kernel

end Verif.Props
