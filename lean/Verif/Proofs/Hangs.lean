import Verif.Proofs.Halts
import Mathlib.Data.Set.Finite.Lattice
import Mathlib.Data.Set.Finite.List
import Mathlib.Order.Bounds.Basic
/-! Every hang has a cause in the template. -/

namespace Verif
open Spec
variable {W : Type} {E : Env W} {ctx₀ : Ctx} {p : Prompt}

/-- The generator answers, and comes to an end if `K`. -/
def Goal (E : Env W) (K : Prop) (g : Gen) : Prop := Responds E g ∧ (K → Finishes E g)

theorem Goal.mono {K K' : Prop} {g : Gen} (h : Goal E K g) (hk : K' → K) : Goal E K' g := ⟨h.1, fun k => h.2 (hk k)⟩

theorem Goal.of_ends {K : Prop} {g : Gen} (h : Finishes E g) : Goal E K g := ⟨h.safe, fun _ => h⟩

theorem Goal.of_safe {K : Prop} {g : Gen} (h : Responds E g) (hk : ¬ K) : Goal E K g := ⟨h, fun k => absurd k hk⟩

theorem Goal.squash {K : Prop} {g : Gen} (h : Goal E K g) : Goal E K (.squash g) := ⟨h.1.squash, fun k => (h.2 k).squash⟩

/-- A generator that has not started is as good as what it turns into. -/
theorem Goal.start {K : Prop} {ctx : Ctx} {c : Cmd} (hn : ∀ s m, c ≠ .lit s m)
    (h : Halts (Goal E K) (startG E (lim E) ctx c)) : Goal E K (.start ctx c) := by
  have he : stepG E (lim E) (.start ctx c) = startG E (lim E) ctx c >>= fun g => (lim E).G g := by
    cases c with
    | lit s m => exact absurd rfl (hn s m)
    | _ => rfl
  refine ⟨.of_step ?_, fun k => .of_step ?_⟩
  · rw [he]; exact h.bind fun g hg => hg.1.out
  · rw [he]; exact h.bind fun g hg => (hg.2 k).out

theorem Goal.lit {ctx : Ctx} {s : Str} {m : Option Method} : Goal E (ctx.method = .comb) (.start ctx (.lit s m)) := by
  by_cases h : ctx.method = .comb
  · refine .of_ends (.of_step ?_)
    simp only [stepG, h]
    exact .pure .done
  · refine .of_safe (.of_step ?_) h
    simp only [stepG]
    exact .pure .rep

theorem sampleGen_goal {K : Prop} {ctx : Ctx} {q : Prompt}
    (h : ∀ c, (q = .inr c ∨ ∃ s, q = .inl s ∧ E.parse s = .ok c) → ∀ g, mkGen E.unknown ctx c = .ok g → Goal E K g) :
    ∀ g, sampleGen E ctx q = .ok g → Goal E K g := by
  have key : ∀ c, (∀ g, mkGen E.unknown ctx c = .ok g → Goal E K g) → ∀ g, (match mkGen E.unknown ctx c with
        | .error e => .error e
        | .ok g => .ok (if E.ignoreWs then .squash g else g) : Except Err Gen) = .ok g → Goal E K g := by
    intro c hc g hx
    cases h1 : mkGen E.unknown ctx c with
    | error e => rw [h1] at hx; cases hx
    | ok g' =>
      rw [h1] at hx; cases hx
      have := hc _ h1
      split
      · exact this.squash
      · exact this
  cases q with
  | inl s =>
    simp only [sampleGen]
    split
    · intro g hg; cases hg; exact .of_ends .done
    · cases h1 : E.parse s with
      | error e => exact fun g h => by (cases h)
      | ok c => exact key c (h c (.inr ⟨s, rfl, h1⟩))
  | inr c =>
    simp only [sampleGen]
    split
    · intro g hg; cases hg; exact .of_ends .done
    · exact key c (h c (.inl rfl))

theorem sampleFirst_halts {ctx : Ctx} {q : Prompt} (h : ∀ g, sampleGen E ctx q = .ok g → Responds E g) :
    Halts (Named E q) ((lim E).sampleFirst E ctx q) := by
  have : Halts (fun _ => True) ((lim E).sampleFirst E ctx q) := by
    unfold Recs.sampleFirst
    exact (Halts.lift h).bind fun g hg => hg.next!.bind fun _ _ => .pure trivial
  exact fun w => ⟨(this w).1, fun a w1 ha => ⟨_, sampleFirst_good (lim_good E) ha⟩⟩

theorem mkColl_halts {ctx : Ctx} {cs : List Cmd} (h : ∀ c ∈ cs, ∀ g, mkGen E.unknown ctx c = .ok g → Responds E g) :
    Halts (CollSafe E) ((lim E).mkColl E ctx cs) := by
  have key : ∀ l : List (Cmd × Gen), (∀ x ∈ l, Responds E x.2) → Halts (CollSafe E) ((lim E).firstValues l) := by
    intro l hl
    induction l with
    | nil => exact .pure (by intro x hx; cases hx)
    | cons x l ih =>
      refine (hl x (by simp)).next!.bind fun y hy => (ih fun x hx => hl x (by simp [hx])).bind fun z hz => .pure ?_
      intro u hu
      rcases List.mem_cons.1 hu with rfl | hu
      · exact hy
      · exact hz u hu
  unfold Recs.mkColl
  refine (Halts.lift (mkGens_safe h)).bind fun gens hg => key _ fun x hx => hg _ (List.of_mem_zip hx).2

/-! ### The chain of needs -/

/-- One step of need: (variables being resolved, command); a variable is not resolved twice. -/
inductive Down (E : Env W) (ctx : Ctx) (p : Prompt) : List Str × Cmd → List Str × Cmd → Prop
  | part {b c c'} : (∀ n d, c ≠ .access n d) → Part E c c' → Down E ctx p (b, c') (b, c)
  | access {b n d c'} : n ∉ b → Needs E ctx p (.access n d) c' → Down E ctx p (n :: b, c') (b, .access n d)

theorem down_acc (h : ¬ Endless E ctx₀ p) {b : List Str} {c : Cmd} (hc : Involved E ctx₀ p c) :
    Acc (Down E ctx₀ p) (b, c) := by
  by_contra hna
  obtain ⟨f, hf0, hf⟩ := not_acc_iff_exists_descending_chain.1 hna
  refine h (.descent (f := fun i => (f i).2) ⟨by rw [hf0]; exact hc, fun i => ?_, ?_⟩)
  · have := hf i
    generalize f (i + 1) = y at this
    generalize f i = x at this
    cases this with
    | part _ h => exact .part h
    | access _ h => exact h
  · have hsub : ∀ i k, ∀ n ∈ (f i).1, n ∈ (f (i + k)).1 := by
      intro i k
      induction k with
      | zero => exact fun _ h => h
      | succ k ih =>
        intro n hn
        have h1 := ih n hn
        have := hf (i + k)
        rw [← Nat.add_assoc]
        generalize f (i + k + 1) = y at *
        generalize f (i + k) = x at *
        cases this with
        | part => exact h1
        | access => exact List.mem_cons_of_mem _ h1
    intro i j n d d' hij hi hj
    have h1 : n ∈ (f (i + 1)).1 := by
      have := hf i
      generalize f (i + 1) = y at *
      generalize f i = x at *
      cases this with
      | part h _ => exact absurd hi (h n d)
      | access => cases hi; exact List.mem_cons_self ..
    have h2 : n ∈ (f j).1 := by
      have := hsub (i + 1) (j - (i + 1)) n h1
      rwa [show i + 1 + (j - (i + 1)) = j by omega] at this
    have := hf j
    generalize f (j + 1) = y at *
    generalize f j = x at *
    cases this with
    | part h _ => exact absurd hj (h n d')
    | access h _ => cases hj; exact h h2

/-! ### Creating generators -/

/-- The condition under which a generator made for `c` comes to an end. -/
def Fine (ctx : Ctx) (c : Cmd) : Prop := ctx.method = .comb ∧ (ctx.effective c).nonfinite = false

theorem Fine.eff {ctx : Ctx} {c : Cmd} (h : Fine ctx c) : effMethod ctx.method c.method = .comb := by
  obtain ⟨h1, h2⟩ := h
  unfold Ctx.effective at h2
  rw [effMethod_eq_nest, h1]
  cases hc : c.method with
  | none => rfl
  | some m =>
    rw [hc] at h2
    cases m with
    | comb => rfl
    | random => cases h2
    | cyc => cases h2

theorem fine_of_method {ctx : Ctx} {c : Cmd} (h : ctx.method = .comb) (hc : ∀ m, c.method = some m → m = .comb) :
    Fine ctx c := by
  refine ⟨h, ?_⟩
  unfold Ctx.effective
  cases e : c.method with
  | none => simp [h, Method.nonfinite]
  | some m => simp [hc m e, Method.nonfinite]

theorem effMethod_comb {m : Method} {o : Option Method} (h : effMethod m o = .comb) : m = .comb := by
  by_contra hm
  exact effMethod_ne_comb hm o h

theorem mkGen_cases {ctx : Ctx} {c : Cmd} {g : Gen} (h : mkGen E.unknown ctx c = .ok g) :
    ((∀ n d, c ≠ .access n d) ∧ g = .start ⟨effMethod ctx.method c.method, ctx.vars, ctx.being⟩ c) ∨
    ∃ n d c', c = .access n d ∧ Resolves E.unknown ctx.vars n d c' ∧ n ∉ ctx.being ∧
      mkGen E.unknown ⟨ctx.method, ctx.vars, n :: ctx.being⟩ c' = .ok g := by
  obtain ⟨o, ho⟩ := chain_total E.unknown ctx.vars ctx.being c
  rw [mkGen_outcome ho] at h
  cases ho with
  | target hn =>
    obtain ⟨b, c', e, rfl⟩ := outcomeGen_ok h
    cases e
    exact .inl ⟨hn, rfl⟩
  | undefined _ => cases h
  | loop _ _ => cases h
  | step h1 h2 h3 =>
    refine .inr ⟨_, _, _, rfl, h1, h2, ?_⟩
    rw [mkGen_outcome (ctx := ⟨ctx.method, ctx.vars, _ :: ctx.being⟩) h3]
    exact h

/-! ### The induction -/

/-- The context of a generator met while sampling. -/
structure Met (E : Env W) (ctx₀ : Ctx) (p : Prompt) (ctx : Ctx) : Prop where
  ok : (causeInv E ctx₀ p).COK ctx
  comb : ctx.method = .comb → ctx₀.method = .comb

theorem Met.withVars {ctx : Ctx} (h : Met E ctx₀ p ctx) {new : List (Str × Cmd)}
    (hn : ∀ x ∈ new, (causeInv E ctx₀ p).B x.1 x.2) : Met E ctx₀ p (ctx.withVars new) := ⟨h.ok.withVars hn, h.comb⟩

structure Claim (E : Env W) (ctx₀ : Ctx) (p : Prompt) (b : List Str) (c : Cmd) : Prop where
  start : ∀ ctx, ctx.being = b → Met E ctx₀ p ctx → Sampled E ctx₀ p b c → Involved E ctx₀ p c →
    Goal E (ctx.method = .comb) (.start ctx c)
  gen : ∀ ctx, ctx.being = b → Met E ctx₀ p ctx → Sampled E ctx₀ p b c → Involved E ctx₀ p c →
    ∀ g, mkGen E.unknown ctx c = .ok g → Goal E (Fine ctx c) g
  lone : ∀ path m v, c = .wild path m v → ∀ ctx, ctx.being = b → Met E ctx₀ p ctx → ∀ wt lo hi sep m',
    Sampled E ctx₀ p b (.variant [(c, wt)] lo hi sep m') → Reached E ctx₀ p (.variant [(c, wt)] lo hi sep m') →
    Sampled E ctx₀ p b c → Involved E ctx₀ p c → Goal E (ctx.method = .comb) (.start ctx (.variant [(c, wt)] lo hi sep m'))

theorem mkGen_text {ctx : Ctx} {s : Str} {m : Option Method} {g : Gen} (h : mkGen E.unknown ctx (.lit s m) = .ok g) :
    Goal E (Fine ctx (.lit s m)) g := by
  rcases mkGen_cases h with ⟨-, rfl⟩ | ⟨n, d, c', e, -⟩
  · exact Goal.lit.mono fun h => h.eff
  · cases e

section
variable (hE : ¬ Endless E ctx₀ p)
include hE

theorem loose_fine {ctx : Ctx} (hctx : Met E ctx₀ p ctx) {c : Cmd} (hc : Loose E ctx₀ p c) (hm : ctx.method = .comb) :
    Fine ctx c :=
  fine_of_method hm fun m h => by
    by_contra hne
    exact hE (.loose (hctx.comb hm) hc h hne)

theorem claim_mk {b : List Str} {c : Cmd}
    (ih : ∀ b' c', Down E ctx₀ p (b', c') (b, c) → Claim E ctx₀ p b' c')
    (hs : ∀ ctx, ctx.being = b → Met E ctx₀ p ctx → Sampled E ctx₀ p b c → Involved E ctx₀ p c →
      Goal E (ctx.method = .comb) (.start ctx c))
    (ctx : Ctx) (hb : ctx.being = b) (hctx : Met E ctx₀ p ctx) (hq : Sampled E ctx₀ p b c) (hi : Involved E ctx₀ p c)
    (g : Gen) (hg : mkGen E.unknown ctx c = .ok g) : Goal E (Fine ctx c) g := by
  rcases mkGen_cases hg with ⟨-, rfl⟩ | ⟨n, d, c', rfl, h1, h2, h3⟩
  · refine (hs ⟨effMethod ctx.method c.method, ctx.vars, ctx.being⟩ hb ⟨⟨Inv.effMethod_MM hctx.ok hq, hctx.ok.vars, hctx.ok.base⟩, fun h => ?_⟩ hq hi).mono
      fun h => Fine.eff h
    exact hctx.comb (effMethod_comb h)
  · subst hb
    have hq' := Inv.resolves_Q hctx.ok hq h2 h1
    have hctx' : Met E ctx₀ p ⟨ctx.method, ctx.vars, n :: ctx.being⟩ := ⟨⟨hctx.ok.method, hctx.ok.vars, hctx.ok.base⟩, hctx.comb⟩
    have go : Needs E ctx₀ p (.access n d) c' → Involved E ctx₀ p c' → Loose E ctx₀ p c' →
        Goal E (Fine ctx (.access n d)) g := fun hn hi' hl =>
      ((ih _ _ (.access h2 hn)).gen _ rfl hctx' hq' hi' g h3).mono fun h => loose_fine hE hctx' hl h.1
    cases h1 with
    | var hl ht =>
      rcases hctx.ok.vars _ (mem_of_lookup hl) with ⟨s, hs⟩ | hd
      · dsimp only at hs
        subst hs
        exact (mkGen_text h3).mono fun h => fine_of_method h.1 (by simp [Cmd.method])
      · exact go (.variable hd) hd.stray.occurs (.variable hd)
    | default _ _ => exact go (.part .default) (.part hi .default) (.default hi)
    | unknownEmpty _ _ h => exact go (.unknown h) (.unknown h) (.unknown h)
    | unknownEmptyDefault _ _ h => exact go (.unknown h) (.unknown h) (.unknown h)
    | unknown _ h => exact go (.unknown h) (.unknown h) (.unknown h)

end

/-- A variant that is not a single wildcard. -/
theorem variant_goal {ctx : Ctx} {opts : List (Cmd × Rat)} {lo hi : Int} {sep : Str} {m : Option Method}
    (hn : ¬ SingleWild opts)
    (hmk : ∀ o ∈ opts, ∀ g, mkGen E.unknown ctx o.1 = .ok g → Goal E (Fine ctx o.1) g)
    (hsel : ctx.method = .cyc → opts ≠ [] → 0 ≤ max lo hi ∧ SomeSelection opts lo hi) :
    Goal E (ctx.method = .comb) (.start ctx (.variant opts lo hi sep m)) := by
  have hmem : ∀ (lo hi : Int), ∀ q ∈ boundCombos (opts.map (·.1)) lo hi, ∀ c ∈ q.2, ∀ g,
      mkGen E.unknown ctx c = .ok g → Goal E (Fine ctx c) g := by
    intro lo hi q hq c hcq
    simp only [boundCombos, List.mem_flatMap, List.mem_map] at hq
    obtain ⟨b, -, cs, hcs, rfl⟩ := hq
    obtain ⟨o, ho, rfl⟩ := List.mem_map.1 ((mem_getCombos.1 hcs).2.2 c hcq)
    exact hmk o ho
  have hcyc : ctx.method = .cyc → opts ≠ [] → Goal E (ctx.method = .comb) (.cycVar sep
      ((boundCombos (opts.map (·.1)) (adjustBounds opts.length lo hi).1 (adjustBounds opts.length lo hi).2).map
        (fun p => Arr.start ctx p.2))) := by
    intro hm hne
    refine .of_safe (.cycVar ?_ ?_) (by rw [hm]; simp)
    · obtain ⟨h0, cs, hnd, hsub, hb⟩ := hsel hm hne
      intro he
      rw [List.map_eq_nil_iff] at he
      have hmem : (cs.length, cs) ∈ boundCombos (opts.map (·.1)) (adjustBounds opts.length lo hi).1
          (adjustBounds opts.length lo hi).2 := by
        rw [mem_boundCombos (adjust_nonneg _ _ _)]
        have : (adjustBounds opts.length lo hi).1 ≤ cs.length ∧ (cs.length : Int) ≤ (adjustBounds opts.length lo hi).2 := by
          simp only [adjustBounds, normBounds, InBounds] at *
          omega
        exact ⟨this.1, this.2, mem_getCombos.2 ⟨rfl, hnd, hsub⟩⟩
      rw [he] at hmem
      cases hmem
    · intro a ha
      obtain ⟨q, hq, rfl⟩ := List.mem_map.1 ha
      exact .start fun c hc g hg => (hmem _ _ q hq c hc g hg).1
  have hcomb : ctx.method = .comb → Goal E (ctx.method = .comb) (.combVar ctx sep []
      (boundCombos (opts.map (·.1)) (adjustBounds opts.length lo hi).1 (adjustBounds opts.length lo hi).2)) := by
    intro hm
    exact .of_ends (.combVar (fun q hq => .start fun c hc g hg =>
      ⟨(hmem _ _ q hq c hc g hg).1, fun h => (hmem _ _ q hq c hc g hg).2 ⟨hm, h⟩⟩) _)
  refine .start (by simp) ?_
  unfold startG
  dsimp only
  split
  · exact .pure (.of_ends .done)
  · rename_i path m' v wt
    exact absurd ⟨path, m', v, wt, rfl⟩ hn
  · rename_i c wt _
    cases h : ctx.method with
    | random =>
      exact .lift fun g hg => .of_safe (hmk _ (List.mem_cons_self ..) g hg).1 (by simp)
    | cyc => exact .pure (h ▸ hcyc h (by simp))
    | comb => exact .pure (h ▸ hcomb h)
  · rename_i h1 h2 h3
    cases h : ctx.method with
    | random => exact .pure (.of_safe (.randVar fun o ho g hg => (hmk o ho g hg).1) (by simp))
    | cyc => exact .pure (h ▸ hcyc h h1)
    | comb => exact .pure (h ▸ hcomb h)

section
variable (hE : ¬ Endless E ctx₀ p) {b : List Str}
include hE

theorem getValues_halts {path : Prompt} {m : Option Method} {v : List (Str × Cmd)}
    (hi : Involved E ctx₀ p (.wild path m v)) {wc : Str} (hn : Named E path wc) :
    Halts (fun items => Values E wc items) (E.getValues wc) :=
  fun w => ⟨fun h => hE (.manager hi hn h), fun _ w' h => ⟨w, w', h⟩⟩

omit hE in
/-- The name of a wildcard can be sampled. -/
theorem path_safe {path : Prompt} {m : Option Method} {v : List (Str × Cmd)} {ctx : Ctx} (hb : ctx.being = b)
    (hctx : Met E ctx₀ p ctx) (hq : Sampled E ctx₀ p b (.wild path m v)) (hi : Involved E ctx₀ p (.wild path m v))
    (ih : ∀ c', Part E (.wild path m v) c' → Claim E ctx₀ p b c') :
    ∀ g, sampleGen E ctx path = .ok g → Responds E g := by
  intro g hg
  refine (sampleGen_goal (K := False) (fun c hc g hg => ?_) g hg).1
  have hp : Part E (.wild path m v) c := by
    rcases hc with rfl | ⟨s, rfl, hs⟩
    · exact .path
    · exact .pathText hs
  exact ((ih c hp).gen ctx hb hctx (.stray hi hq.wild.2 hp (by simp)) (.part hi hp) g hg).mono False.elim

theorem claim_lone {path : Prompt} {m : Option Method} {v : List (Str × Cmd)}
    (ih : ∀ c', Part E (.wild path m v) c' → Claim E ctx₀ p b c')
    (ctx : Ctx) (hb : ctx.being = b) (hctx : Met E ctx₀ p ctx) (wt : Rat) (lo hi : Int) (sep : Str) (m' : Option Method)
    (hqv : Sampled E ctx₀ p b (.variant [(.wild path m v, wt)] lo hi sep m'))
    (hr : Reached E ctx₀ p (.variant [(.wild path m v, wt)] lo hi sep m'))
    (hq : Sampled E ctx₀ p b (.wild path m v)) (hi' : Involved E ctx₀ p (.wild path m v)) :
    Goal E (ctx.method = .comb) (.start ctx (.variant [(.wild path m v, wt)] lo hi sep m')) := by
  refine .start (by simp) ?_
  simp only [startG]
  refine Halts.bind (P := fun c => Goal E (ctx.method = .comb) (.start ctx c)) ?_ fun v hv => .pure hv
  unfold Recs.wildcardToVariant
  refine (sampleFirst_halts (path_safe hb hctx hq hi' ih)).bind fun wc hwc => ?_
  refine (getValues_halts hE hi' hwc).bind fun items hitems => ?_
  refine (Halts.lift (P := fun opts => ∃ cs, ParsesAll E (iterateWeighted items) cs ∧ opts = cs.map (fun c => (c, 1)))
    fun opts h => mapM_parses h).bind fun opts ho => .pure ?_
  obtain ⟨cs, hcs, rfl⟩ := ho
  have hmem : ∀ c ∈ cs, ∃ i ∈ items, E.parse i.content = .ok c := by
    intro c hc
    have : ∃ x ∈ iterateWeighted items, E.parse x = .ok c := by
      clear hitems
      generalize iterateWeighted items = l at hcs
      induction hcs with
      | nil => cases hc
      | cons h _ ih =>
        rcases List.mem_cons.1 hc with rfl | hc
        · exact ⟨_, by simp, h⟩
        · obtain ⟨x, hx, hx'⟩ := ih hc
          exact ⟨x, by simp [hx], hx'⟩
    obtain ⟨x, hx, hx'⟩ := this
    obtain ⟨i, hi, rfl⟩ := mem_iterateWeighted hx
    exact ⟨i, hi, hx'⟩
  have hpart : ∀ c ∈ cs, Part E (.wild path m v) c := fun c hc => by
    obtain ⟨i, hi, h⟩ := hmem c hc
    exact .value hwc hitems hi h
  have hsam : ∀ c ∈ cs, Sampled E ctx₀ p b c := fun c hc => .stray hi' hq.wild.2 (hpart c hc) (by simp)
  have hrv := Reached.expanded hr hwc hitems hcs
  have hqe : Sampled E ctx₀ p b (Cmd.mkVariant (cs.map (fun c => (c, 1))) (min lo items.length) (min hi items.length)
      sep m) := by
    refine (causeInv E ctx₀ p).expand hqv hwc hitems ?_ ?_
    · intro o ho
      obtain ⟨c, hc, rfl⟩ := List.mem_map.1 ho
      exact ⟨rfl, hmem c hc⟩
    · intro he
      rw [List.map_eq_nil_iff] at he
      subst he
      cases hcs' : iterateWeighted items with
      | nil => rfl
      | cons x l => rw [hcs'] at hcs; cases hcs
  by_cases hsw : SingleWild (cs.map (fun c => (c, (1 : Rat))))
  · obtain ⟨path', m'', v', wt', he⟩ := hsw
    unfold Cmd.mkVariant at hrv hqe ⊢
    rw [he] at hrv hqe ⊢
    have hc : Cmd.wild path' m'' v' ∈ cs := by
      have : (Cmd.wild path' m'' v', wt') ∈ cs.map (fun c => (c, (1 : Rat))) := by rw [he]; simp
      obtain ⟨c, hc, e⟩ := List.mem_map.1 this
      cases e; exact hc
    exact (ih _ (hpart _ hc)).lone path' m'' v' rfl ctx hb hctx _ _ _ _ _ hqe hrv (hsam _ hc) (.part hi' (hpart _ hc))
  · refine variant_goal hsw ?_ ?_
    · intro o ho g hg
      obtain ⟨c, hc, rfl⟩ := List.mem_map.1 ho
      exact (ih c (hpart c hc)).gen ctx hb hctx (hsam c hc) (.part hi' (hpart c hc)) g hg
    · intro hm hne
      by_contra hns
      exact hE (.selection hrv (hm ▸ hctx.ok.method) hne hsw hns)

theorem claim_wild {path : Prompt} {m : Option Method} {v : List (Str × Cmd)}
    (ih : ∀ c', Part E (.wild path m v) c' → Claim E ctx₀ p b c')
    (ctx : Ctx) (hb : ctx.being = b) (hctx : Met E ctx₀ p ctx)
    (hq : Sampled E ctx₀ p b (.wild path m v)) (hi : Involved E ctx₀ p (.wild path m v)) :
    Goal E (ctx.method = .comb) (.start ctx (.wild path m v)) := by
  refine .start (by simp) ?_
  simp only [startG]
  refine (sampleFirst_halts (path_safe hb hctx hq hi ih)).bind fun wc hwc => ?_
  refine (getValues_halts hE hi hwc).bind fun items hitems => ?_
  have hctx' : Met E ctx₀ p (ctx.withVars v) := hctx.withVars fun x hx => .inr (.param hi hx)
  have hval : ∀ i ∈ items, ∀ g, sampleGen E (ctx.withVars v) (.inl i.content) = .ok g →
      Goal E (ctx.method = .comb) g := by
    intro i hi' g hg
    refine sampleGen_goal (fun c hc g hg => ?_) g hg
    rcases hc with h | ⟨s, h, hs⟩
    · cases h
    · cases h
      have hp : Part E (.wild path m v) c := .value hwc hitems hi' hs
      exact ((ih c hp).gen (ctx.withVars v) hb hctx' (.stray hi hq.wild.2 hp (by simp)) (.part hi hp) g hg).mono
        fun h => loose_fine hE hctx' (.value hi hwc hitems hi' hs) h
  have hiw : ∀ x ∈ iterateWeighted items, ∀ g, sampleGen E (ctx.withVars v) (.inl x) = .ok g →
      Goal E (ctx.method = .comb) g := by
    intro x hx
    obtain ⟨i, hi', rfl⟩ := mem_iterateWeighted hx
    exact hval i hi'
  by_cases hv : items.isEmpty = true
  · simp only [hv, if_true]
    have hitems' : items = [] := by simpa using hv
    subst hitems'
    unfold Recs.fallback
    refine Halts.bind (P := fun _ => True) ?_ fun x _ => .pure (.of_safe .rep fun h => ?_)
    · cases path with
      | inl t => exact .pure trivial
      | inr c => exact (sampleFirst_halts (path_safe (ctx := ctx.withVars v) hb hctx' hq hi ih)).weaken fun _ _ => trivial
    · exact hE (.missing (hctx.comb h) hi hwc hitems)
  · simp only [hv]
    cases h : ctx.method with
    | random =>
      refine .pure (.of_safe (.randWild (by simp) fun i hi' g hg => ?_) (by simp))
      have hr : Asks E ctx₀ p .random := h ▸ hctx.ok.method
      refine fun w => ⟨((hval i hi' g hg).1.out w).1, fun o w' ho he => ?_⟩
      subst he
      obtain ⟨n, hn⟩ := (lim_conv E).G g w
      have hrt : ¬ (causeInv E ctx₀ p).S .runtime := fun h => hE (.dry hi hr h)
      have hne : i.content ≠ [] := fun h => hE (.content hi hr hwc hitems hi' h)
      have hq' : (causeInv E ctx₀ p).Q ctx.being (.wild path m v) := hb ▸ hq
      have hW := (Inv.sampleGen_W (k := .fresh) hctx'.ok (p := .inl i.content) (Inv.wild_values_F hq' hwc hitems i hi')
        (.inr hne) (fun h => by cases h)).1 g hg
      have := ((Inv.recs_W hrt n).G _ g hW w).1 none w' ((hn n (Nat.le_refl _)).trans ho)
      cases this
    | comb =>
      exact .pure (.of_ends (.combWild (fun x hx g hg => (hiw x hx g hg).2 h) .done))
    | cyc =>
      simp only [Bool.false_eq_true, if_false]
      exact (Halts.lift (sampleGens_safe fun x hx g hg => (hiw x hx g hg).1)).bind fun gs hgs =>
        .pure (.of_safe (.cycWild hgs) (by simp))

omit hE in
/-- Processing the assignments of a sequence. -/
theorem assigns_halts {ctx : Ctx} (hctx : Met E ctx₀ p ctx) {cs : List Cmd}
    (h : ∀ n v i o, .assign n v i o ∈ cs → (causeInv E ctx₀ p).B n v ∧
      ∀ g, mkGen E.unknown ctx v = .ok g → Responds E g) :
    Halts (fun x => (∀ c ∈ x.1, c ∈ cs ∧ ∀ n v i o, c ≠ .assign n v i o) ∧
      ∀ y ∈ x.2, (causeInv E ctx₀ p).B y.1 y.2) ((lim E).assigns E ctx cs) := by
  induction cs with
  | nil => exact .pure ⟨by simp, by simp⟩
  | cons c cs ih =>
    have ih' := ih fun n v i o hm => h n v i o (by simp [hm])
    have keep : (∀ n v i o, c ≠ .assign n v i o) → Halts (fun x => (∀ c' ∈ x.1, c' ∈ c :: cs ∧ ∀ n v i o, c' ≠ .assign n v i o) ∧
        ∀ y ∈ x.2, (causeInv E ctx₀ p).B y.1 y.2) (do
          let (toks, new) ← (lim E).assigns E ctx cs
          return (c :: toks, new) : M W (List Cmd × List (Str × Cmd))) := by
      intro hc
      refine ih'.bind fun x hx => .pure ⟨?_, hx.2⟩
      intro y hy
      rcases List.mem_cons.1 hy with rfl | hy
      · exact ⟨by simp, hc⟩
      · exact ⟨by simp [(hx.1 y hy).1], (hx.1 y hy).2⟩
    cases c with
    | assign n v i o =>
      have ha : Halts (fun c => (causeInv E ctx₀ p).B n c) ((lim E).assign E ctx n v i o) := by
        unfold Recs.assign
        cases hl : (if o = true then none else List.lookup n ctx.vars) with
        | some u =>
          cases o with
          | true => cases hl
          | false => exact .pure (hctx.ok.vars _ (mem_of_lookup hl))
        | none =>
          obtain ⟨h1, h2⟩ := h n v i o (by simp)
          cases i with
          | false => exact .pure h1
          | true =>
            cases v with
            | lit s m => exact .pure h1
            | _ => exact (Halts.lift h2).bind fun g hg => hg.next!.bind fun y _ => .pure (.inl ⟨_, rfl⟩)
      refine ha.bind fun u hu => ih'.bind fun x hx => .pure ⟨fun y hy => ⟨by simp [(hx.1 y hy).1], (hx.1 y hy).2⟩, ?_⟩
      intro y hy
      rcases List.mem_append.1 hy with hy | hy
      · exact hx.2 y hy
      · simp only [List.mem_singleton] at hy; subst hy; exact hu
    | _ => exact keep (by simp)

theorem claim_seq {toks : List Cmd} {sep : Str} {m : Option Method}
    (ih : ∀ b' c', Down E ctx₀ p (b', c') (b, .seq toks sep m) → Claim E ctx₀ p b' c')
    (ih2 : ∀ n v i o, .assign n v i o ∈ toks → Claim E ctx₀ p b v)
    (ctx : Ctx) (hb : ctx.being = b) (hctx : Met E ctx₀ p ctx)
    (hq : Sampled E ctx₀ p b (.seq toks sep m)) (hi : Involved E ctx₀ p (.seq toks sep m)) :
    Goal E (ctx.method = .comb) (.start ctx (.seq toks sep m)) := by
  refine .start (by simp) ?_
  simp only [startG]
  refine (assigns_halts hctx (fun n v i o hm => ?_)).bind fun x hx => ?_
  · have := (causeInv E ctx₀ p).assigned hq hm
    exact ⟨this.1, fun g hg => ((ih2 n v i o hm).gen ctx hb hctx this.2
      (.part (.part hi (.token hm)) .assigned) g hg).1⟩
  · obtain ⟨toks', new⟩ := x
    have hctx' : Met E ctx₀ p (ctx.withVars new) := hctx.withVars hx.2
    have htok : ∀ c ∈ toks', ∀ g, mkGen E.unknown (ctx.withVars new) c = .ok g → Goal E (Fine (ctx.withVars new) c) g :=
      fun c hc => (ih b c (.part (by simp) (.token (hx.1 c hc).1))).gen _ hb hctx'
        ((causeInv E ctx₀ p).token hq (hx.1 c hc).1 (hx.1 c hc).2) (.part hi (.token (hx.1 c hc).1))
    have key : ∀ K : Prop, ¬ K → Halts (Goal E K) (do
          let gens ← M.lift (mkGens E.unknown (ctx.withVars new) toks')
          return .seqNF sep gens : M W Gen) := fun K hm =>
      (Halts.lift (mkGens_safe fun c hc g hg => (htok c hc g hg).1)).bind fun gs hgs => .pure (.of_safe (.seqNF hgs) hm)
    dsimp only
    cases h : ctx.method with
    | random => exact key _ (by simp)
    | cyc => exact key _ (by simp)
    | comb =>
      refine (mkColl_halts fun c hc g hg => (htok c (List.mem_of_mem_filter hc) g hg).1).bind fun coll hcoll =>
        .pure (.of_ends (.combSeq hcoll (.start ?_)))
      intro c hc hf g hg
      simp only [List.cons_append, List.mem_cons, List.mem_append, List.not_mem_nil, or_false] at hc
      rcases hc with rfl | hc | rfl
      · exact (mkGen_text hg).2 ⟨h, hf⟩
      · exact (htok c hc g hg).2 ⟨h, hf⟩
      · exact (mkGen_text hg).2 ⟨h, hf⟩

theorem claim_wrap {wr inn : Cmd} {m : Option Method}
    (ih : ∀ c', Part E (.wrap wr inn m) c' → Claim E ctx₀ p b c')
    (ctx : Ctx) (hb : ctx.being = b) (hctx : Met E ctx₀ p ctx)
    (hq : Sampled E ctx₀ p b (.wrap wr inn m)) (hi : Involved E ctx₀ p (.wrap wr inn m)) :
    Goal E (ctx.method = .comb) (.start ctx (.wrap wr inn m)) := by
  refine .start (by simp) ?_
  have hw := (ih wr .wrapper).gen ctx hb hctx ((causeInv E ctx₀ p).wrapper hq) (.part hi .wrapper)
  have hn := (ih inn .inner).gen ctx hb hctx ((causeInv E ctx₀ p).inner hq) (.part hi .inner)
  simp only [startG]
  cases h : ctx.method with
  | random =>
    exact (Halts.lift hw).bind fun g hg => (Halts.lift hn).bind fun g' hg' => .pure (.of_safe (.zipWrap hg.1 hg'.1) (by simp))
  | cyc => exact .raise
  | comb =>
    have hw' : ∀ g, sampleGen E ctx (.inr wr) = .ok g → Finishes E g := fun g hg =>
      (sampleGen_goal (K := True) (fun c hc g hg => by
        rcases hc with e | ⟨s, e, _⟩ <;> cases e
        exact (hw g hg).mono fun _ => loose_fine hE hctx (.wrapper hi) h) g hg).2 trivial
    have hn' : ∀ g, sampleGen E ctx (.inr inn) = .ok g → Finishes E g := fun g hg =>
      (sampleGen_goal (K := True) (fun c hc g hg => by
        rcases hc with e | ⟨s, e, _⟩ <;> cases e
        exact (hn g hg).mono fun _ => loose_fine hE hctx (.inner hi) h) g hg).2 trivial
    exact (Halts.lift hw').bind fun g hg => .pure (.of_ends (.combWrap hn' hg))

/-- Every involved command can be sampled. -/
theorem claim_all {x : List Str × Cmd} (h : Acc (Down E ctx₀ p) x) : Claim E ctx₀ p x.1 x.2 := by
  replace h := h.transGen
  induction h with
  | intro x hacc ih =>
    obtain ⟨b, c⟩ := x
    have ih' : ∀ b' c', Down E ctx₀ p (b', c') (b, c) → Claim E ctx₀ p b' c' := fun b' c' h => ih (b', c') (.single h)
    have hpart : (∀ n d, c ≠ .access n d) → ∀ c', Part E c c' → Claim E ctx₀ p b c' := fun hn c' h => ih' b c' (.part hn h)
    have hs : ∀ ctx, ctx.being = b → Met E ctx₀ p ctx → Sampled E ctx₀ p b c → Involved E ctx₀ p c →
        Goal E (ctx.method = .comb) (.start ctx c) := by
      intro ctx hb hctx hq hi
      cases c with
      | lit s m => exact .lit
      | seq toks sep m =>
        refine claim_seq hE ih' ?_ ctx hb hctx hq hi
        exact fun n v i o hm => ih (b, v) (.tail (.single (.part (by simp) .assigned)) (.part (by simp) (.token hm)))
      | variant opts lo hi' sep m =>
        by_cases hsw : SingleWild opts
        · obtain ⟨path, m', v, wt, rfl⟩ := hsw
          exact (hpart (by simp) _ (.option (List.mem_cons_self ..))).lone path m' v rfl ctx hb hctx _ _ _ _ _ hq
            (.involved hi) ((causeInv E ctx₀ p).option hq (List.mem_cons_self ..)) (.part hi (.option (List.mem_cons_self ..)))
        · refine variant_goal hsw ?_ ?_
          · intro o ho g hg
            exact (hpart (by simp) o.1 (.option ho)).gen ctx hb hctx ((causeInv E ctx₀ p).option hq ho)
              (.part hi (.option ho)) g hg
          · intro hm hne
            by_contra hns
            exact hE (.selection (.involved hi) (hm ▸ hctx.ok.method) hne hsw hns)
      | wild path m v => exact claim_wild hE (hpart (by simp)) ctx hb hctx hq hi
      | assign n v i o => exact .start (by simp) .raise
      | access n d => exact .start (by simp) .raise
      | wrap wr inn m => exact claim_wrap hE (hpart (by simp)) ctx hb hctx hq hi
    refine ⟨hs, claim_mk hE ih' hs, ?_⟩
    rintro path m v rfl
    exact claim_lone hE (hpart (by simp))

end

end Verif

namespace Verif
open Spec
variable {W : Type} {E : Env W} {ctx : Ctx} {p : Prompt}

theorem sampleGen_ends (hE : ¬ Endless E ctx p) (hb : ctx.being = []) :
    ∀ g, sampleGen E ctx p = .ok g → Goal E (ctx.method = .comb) g := by
  refine sampleGen_goal fun c hc g hg => ?_
  have hctx : Met E ctx p ctx := ⟨⟨.inl rfl, fun x hx => .inr (.var hx), fun _ h => h⟩, fun h => h⟩
  have hi : Involved E ctx p c ∧ Stray E ctx p c ∧ Loose E ctx p c := by
    rcases hc with rfl | ⟨s, rfl, hs⟩
    · exact ⟨.template rfl, .template rfl, .template rfl⟩
    · exact ⟨.text rfl hs, .text rfl hs, .text rfl hs⟩
  have hu : Under E ctx p [] c := by intro n hn; cases hn
  exact ((claim_all hE (down_acc hE (b := []) hi.1)).gen ctx hb hctx (.occurs hi.1 hu (.inl hi.2.1)) hi.1 g hg).mono
    fun h => loose_fine hE hctx hi.2.2 h

theorem Responds.collect {g : Gen} (h : Responds E g) (k : Nat) (w : W) :
    Ev fun n => (collect E n k g w).2 ≠ .fuel := by
  induction k generalizing g w with
  | zero => exact Ev.of fun n => by simp [Verif.collect]
  | succ k ih =>
    have h1 := h.out w
    have hn := (lim_conv E).G g w
    cases ho : (lim E).G g w with
    | fuel => exact absurd ho h1.1
    | err e w' =>
      refine hn.mp fun n hn => ?_
      simp [Verif.collect, nextG, hn, ho]
    | ok o w' =>
      cases o with
      | none =>
        refine hn.mp fun n hn => ?_
        simp [Verif.collect, nextG, hn, ho]
      | some x =>
        have h2 : Responds E x.2 := h1.2 _ _ ho
        refine (Ev.and hn (ih h2 w')).mp fun n ⟨hn, h2⟩ => ?_
        simp only [Verif.collect, nextG, hn, ho]
        exact h2

/-- The iteration is over: nothing more comes. -/
theorem Finishes.collect {g : Gen} (h : Finishes E g) (w : W) :
    ∃ K ps o, ((∃ w', o = Stop.stop w') ∨ ∃ e w', o = Stop.raised e w') ∧
      ∀ k, K ≤ k → Ev fun n => collect E n k g w = (ps, o) := by
  revert w
  refine h.ind (P := fun g => ∀ w, ∃ K ps o, ((∃ w', o = Stop.stop w') ∨ ∃ e w', o = Stop.raised e w') ∧
      ∀ k, K ≤ k → Ev fun n => Verif.collect E n k g w = (ps, o)) ?_
  intro g _ ih w
  have h1 := ih w
  have hn := (lim_conv E).G g w
  cases ho : (lim E).G g w with
  | fuel => exact absurd ho h1.1
  | err e w' =>
    refine ⟨1, [], .raised e w', .inr ⟨e, w', rfl⟩, fun k hk => hn.mp fun n hn => ?_⟩
    obtain ⟨k, rfl⟩ : ∃ k', k = k' + 1 := ⟨k - 1, by omega⟩
    simp [Verif.collect, nextG, hn, ho]
  | ok o w' =>
    cases o with
    | none =>
      refine ⟨1, [], .stop w', .inl ⟨w', rfl⟩, fun k hk => hn.mp fun n hn => ?_⟩
      obtain ⟨k, rfl⟩ : ∃ k', k = k' + 1 := ⟨k - 1, by omega⟩
      simp [Verif.collect, nextG, hn, ho]
    | some x =>
      obtain ⟨K, ps, o, h2, h3⟩ := (h1.2 _ _ ho).2 w'
      refine ⟨K + 1, x.1 :: ps, o, h2, fun k hk => ?_⟩
      obtain ⟨k, rfl⟩ : ∃ k', k = k' + 1 := ⟨k - 1, by omega⟩
      refine (Ev.and hn (h3 k (by omega))).mp fun n ⟨hn, h3⟩ => ?_
      simp only [Verif.collect, nextG, hn, ho, h3]

theorem samplePrompts_answers (hE : ¬ Endless E ctx p) (hb : ctx.being = []) (k : Nat) (w : W) :
    Ev fun n => (samplePrompts E n ctx p k w).2 ≠ .fuel := by
  cases h : sampleGen E ctx p with
  | error e => exact Ev.of fun n => by simp [samplePrompts, h]
  | ok g =>
    refine ((sampleGen_ends hE hb g h).1.collect k w).mp fun n hn => ?_
    simpa [samplePrompts, h] using hn

theorem samplePrompts_ends (hE : ¬ Endless E ctx p) (hb : ctx.being = []) (hm : ctx.method = .comb) (w : W) :
    ∃ K ps o, ((∃ w', o = Stop.stop w') ∨ ∃ e w', o = Stop.raised e w') ∧
      ∀ k, K ≤ k → Ev fun n => samplePrompts E n ctx p k w = (ps, o) := by
  cases h : sampleGen E ctx p with
  | error e =>
    exact ⟨0, [], .raised e w, .inr ⟨e, w, rfl⟩, fun k _ => Ev.of fun n => by simp [samplePrompts, h]⟩
  | ok g =>
    obtain ⟨K, ps, o, h1, h2⟩ := ((sampleGen_ends hE hb g h).2 hm).collect w
    refine ⟨K, ps, o, h1, fun k hk => (h2 k hk).mp fun n hn => ?_⟩
    simpa [samplePrompts, h] using hn

/-! ### Where there are finitely many commands -/

theorem part_sizeOf {c c' : Cmd} (hw : ∀ path m v, c ≠ .wild path m v) (h : Part E c c') : sizeOf c' < sizeOf c := by
  cases h with
  | token h => have := List.sizeOf_lt_of_mem h; simp; omega
  | option h =>
    rename_i opts lo hi sep m p
    have := List.sizeOf_lt_of_mem h
    have : sizeOf p.1 < sizeOf p := by cases p; simp; omega
    simp; omega
  | path => exact absurd rfl (hw _ _ _)
  | pathText => exact absurd rfl (hw _ _ _)
  | param => exact absurd rfl (hw _ _ _)
  | value => exact absurd rfl (hw _ _ _)
  | assigned => simp; omega
  | default => simp; omega
  | wrapper => simp; omega
  | inner => simp; omega

theorem Spec.Descent.involved {f : Nat → Cmd} (h : Descent E ctx p f) (i : Nat) : Involved E ctx p (f i) := by
  induction i with
  | zero => exact h.first
  | succ i ih =>
    have := h.next i
    generalize f (i + 1) = y at *
    generalize f i = x at *
    cases this with
    | part h => exact .part ih h
    | «variable» h => exact h.stray.occurs
    | unknown h => exact .unknown h

theorem Spec.Loose.involved {c : Cmd} (h : Loose E ctx p c) : Involved E ctx p c := by
  cases h with
  | template h => exact .template h
  | text h h' => exact .text h h'
  | «variable» h => exact h.stray.occurs
  | unknown h => exact .unknown h
  | default h => exact .part h .default
  | value h1 h2 h3 h4 h5 => exact .part h1 (.value h2 h3 h4 h5)
  | wrapper h => exact .part h .wrapper
  | inner h => exact .part h .inner

/-- If finitely many commands are involved, an endless chain passes through some wildcard again and again. -/
theorem descent_finite (hf : {c | Involved E ctx p c}.Finite) {f : Nat → Cmd} (h : Descent E ctx p f) :
    ∃ path m v, Involved E ctx p (.wild path m v) ∧
      Relation.TransGen (Needs E ctx p) (.wild path m v) (.wild path m v) := by
  by_contra hno
  push Not at hno
  have hreach : ∀ i k, Relation.TransGen (Needs E ctx p) (f i) (f (i + k + 1)) := by
    intro i k
    induction k with
    | zero => exact .single (h.next i)
    | succ k ih => exact ih.tail (h.next (i + k + 1))
  -- the accesses and the wildcards of the chain
  let A : Set Nat := {i | (∃ n d, f i = .access n d) ∨ ∃ path m v, f i = .wild path m v}
  have hA : A.Finite := by
    refine Set.Finite.of_injOn (f := f) (t := {c | Involved E ctx p c}) (fun i _ => h.involved i) ?_ hf
    have key : ∀ i j, i ∈ A → i < j → f i ≠ f j := by
      intro i j hi hij he
      rcases hi with ⟨n, d, hn⟩ | ⟨path, m, v, hw⟩
      · exact h.once i j n d d hij hn (he ▸ hn)
      · have := hreach i (j - i - 1)
        rw [show i + (j - i - 1) + 1 = j by omega, ← he, hw] at this
        exact hno path m v (hw ▸ h.involved i) this
    intro i hi j hj he
    rcases Nat.lt_trichotomy i j with hlt | heq | hgt
    · exact absurd he (key i j hi hlt)
    · exact heq
    · exact absurd he.symm (key j i hj hgt)
  obtain ⟨N, hN⟩ := hA.bddAbove
  have hdec : ∀ k, sizeOf (f (N + 1 + k)) + k ≤ sizeOf (f (N + 1)) := by
    intro k
    induction k with
    | zero => exact Nat.le_refl _
    | succ k ih =>
      have hnA : N + 1 + k ∉ A := fun hm => by have := hN hm; omega
      have hna : ∀ n d, f (N + 1 + k) ≠ .access n d := fun n d he => hnA (.inl ⟨n, d, he⟩)
      have hnw : ∀ path m v, f (N + 1 + k) ≠ .wild path m v := fun path m v he => hnA (.inr ⟨path, m, v, he⟩)
      have := h.next (N + 1 + k)
      rw [show N + 1 + (k + 1) = N + 1 + k + 1 by omega]
      generalize f (N + 1 + k + 1) = y at *
      generalize f (N + 1 + k) = x at *
      cases this with
      | part hp => have := part_sizeOf hnw hp; omega
      | «variable» => exact absurd rfl (hna _ _)
      | unknown => exact absurd rfl (hna _ _)
  have := hdec (sizeOf (f (N + 1)) + 1)
  omega

/-- Without wildcards, a command has finitely many parts. -/
theorem parts_finite (c : Cmd) (hw : ∀ c', Relation.ReflTransGen (Part E) c c' → ∀ path m v, c' ≠ .wild path m v) :
    {c' | Relation.ReflTransGen (Part E) c c'}.Finite := by
  induction hs : sizeOf c using Nat.strong_induction_on generalizing c with
  | _ n ih =>
    subst hs
    have hc := hw c .refl
    have himm : {c' | Part E c c'}.Finite := by
      cases c with
      | lit s m => exact (Set.finite_empty).subset fun c' h => by cases h
      | seq toks sep m => exact (List.finite_toSet toks).subset fun c' h => by cases h; assumption
      | variant opts lo hi sep m =>
        exact (List.finite_toSet (opts.map (·.1))).subset fun c' h => by
          cases h with
          | option h => exact List.mem_map_of_mem (f := (·.1)) h
      | wild path m v => exact absurd rfl (hc path m v)
      | assign n v i o => exact (Set.finite_singleton v).subset fun c' h => by cases h; rfl
      | access n d =>
        cases d with
        | none => exact (Set.finite_empty).subset fun c' h => by cases h
        | some d => exact (Set.finite_singleton d).subset fun c' h => by cases h; rfl
      | wrap w i m =>
        exact (Set.Finite.insert w (Set.finite_singleton i)).subset fun c' h => by
          cases h
          · exact .inl rfl
          · exact .inr rfl
    refine (Set.Finite.insert c (himm.biUnion (t := fun c' => {c'' | Relation.ReflTransGen (Part E) c' c''})
      fun c' h => ?_)).subset ?_
    · exact ih _ (part_sizeOf hc h) c' (fun c'' h' => hw c'' (.head h h')) rfl
    · intro c' h
      rcases Relation.ReflTransGen.cases_head h with rfl | ⟨d, h1, h2⟩
      · exact .inl rfl
      · exact .inr (Set.mem_biUnion h1 h2)

theorem involved_parts {c c' : Cmd} (h : Relation.ReflTransGen (Part E) c c') (hc : Involved E ctx p c) :
    Involved E ctx p c' := by
  induction h with
  | refl => exact hc
  | tail _ h ih => exact .part ih h

/-- Without wildcards, finitely many commands are involved. -/
theorem involved_finite (hw : ∀ path m v, ¬ Involved E ctx p (.wild path m v)) :
    {c | Involved E ctx p c}.Finite := by
  let roots : Set Cmd := {c | p = .inr c ∨ (∃ s, p = .inl s ∧ E.parse s = .ok c) ∨ (∃ b ∈ ctx.vars, c = b.2) ∨
    E.unknown = some c}
  have hroots : roots.Finite := by
    have h1 : {c : Cmd | p = .inr c}.Finite := by
      refine Set.Subsingleton.finite fun a ha b hb => ?_
      have := ha.symm.trans hb; cases this; rfl
    have h2 : {c : Cmd | ∃ s, p = .inl s ∧ E.parse s = .ok c}.Finite := by
      refine Set.Subsingleton.finite fun a ha b hb => ?_
      obtain ⟨s, rfl, hs⟩ := ha
      obtain ⟨s', e, hs'⟩ := hb
      cases e
      have := hs.symm.trans hs'; cases this; rfl
    have h3 : {c : Cmd | ∃ b ∈ ctx.vars, c = b.2}.Finite :=
      (List.finite_toSet (ctx.vars.map (·.2))).subset fun c h => by
        obtain ⟨b, hb, rfl⟩ := h
        exact List.mem_map_of_mem (f := (·.2)) hb
    have h4 : {c : Cmd | E.unknown = some c}.Finite := by
      refine Set.Subsingleton.finite fun a ha b hb => ?_
      have := ha.symm.trans hb; cases this; rfl
    exact (((h1.union (h2.union (h3.union h4))))).subset fun c h => h
  have hin : ∀ c ∈ roots, Involved E ctx p c := by
    rintro c (h | ⟨s, h1, h2⟩ | ⟨b, h1, rfl⟩ | h)
    · exact .template h
    · exact .text h1 h2
    · exact .var h1
    · exact .unknown h
  refine (hroots.biUnion (t := fun c => {c' | Relation.ReflTransGen (Part E) c c'}) fun c hc => ?_).subset ?_
  · exact parts_finite c fun c' h path m v he => hw path m v (he ▸ involved_parts h (hin c hc))
  · intro c hc
    replace hc : Involved E ctx p c := hc
    induction hc with
    | template h => exact Set.mem_biUnion (x := _) (show _ ∈ roots from .inl h) .refl
    | text h h' => exact Set.mem_biUnion (x := _) (show _ ∈ roots from .inr (.inl ⟨_, h, h'⟩)) .refl
    | var h => exact Set.mem_biUnion (x := _) (show _ ∈ roots from .inr (.inr (.inl ⟨_, h, rfl⟩))) .refl
    | unknown h => exact Set.mem_biUnion (x := _) (show _ ∈ roots from .inr (.inr (.inr h))) .refl
    | part _ h ih =>
      obtain ⟨r, hr, h'⟩ := Set.mem_iUnion₂.1 (ih)
      exact Set.mem_biUnion hr (Relation.ReflTransGen.tail h' h)

end Verif
