import Verif.Proofs.Comb
import Verif.Spec.Endings
/-! Combinatorial sampling of templates of literals, sequences, variants and wraps, with its ending. -/

namespace Verif
open Spec
variable {W : Type} {E : Env W}

/-- Iterating `g` in world `w` produces exactly `outs` and then stops, or fails with RuntimeError; the
world never changes. -/
inductive YE (E : Env W) (w : W) : Gen → List Str → Bool → Prop
  | stop {g} : NextG E g w (.ok none w) → YE E w g [] false
  | fail {g} : NextG E g w (.err .runtime w) → YE E w g [] true
  | cons {g v g' vs b} : NextG E g w (.ok (some (v, g')) w) → YE E w g' vs b → YE E w g (v :: vs) b

inductive YES (E : Env W) (w : W) (coll : Coll) : SFrame → List (List Str) → Bool → Prop
  | stop {fr} : NextS E coll fr w (.ok (coll, none) w) → YES E w coll fr [] false
  | fail {fr} : NextS E coll fr w (.err .runtime w) → YES E w coll fr [] true
  | cons {fr v fr' vs b} : NextS E coll fr w (.ok (coll, some (v, fr')) w) → YES E w coll fr' vs b →
      YES E w coll fr (v :: vs) b

inductive YEP (E : Env W) (w : W) : PFrame → List (List Str) → Bool → Prop
  | stop {fr} : NextP E fr w (.ok none w) → YEP E w fr [] false
  | fail {fr} : NextP E fr w (.err .runtime w) → YEP E w fr [] true
  | cons {fr v fr' vs b} : NextP E fr w (.ok (some (v, fr')) w) → YEP E w fr' vs b →
      YEP E w fr (v :: vs) b

theorem YE.collect {g : Gen} {w : W} {outs : List Str} {b : Bool} (h : YE E w g outs b) :
    Ev fun n => (∀ k, (collect E n k g w).1 = outs.take k) ∧
      (∀ k, outs.length < k → (Verif.collect E n k g w).2 = if b then .raised .runtime w else .stop w) := by
  induction h with
  | stop h =>
    refine h.mp fun n h => ⟨fun k => ?_, fun k hk => ?_⟩
    · cases k with
      | zero => simp [Verif.collect]
      | succ k => simp [Verif.collect, nextG, h]
    · cases k with
      | zero => simp at hk
      | succ k => simp [Verif.collect, nextG, h]
  | fail h =>
    refine h.mp fun n h => ⟨fun k => ?_, fun k hk => ?_⟩
    · cases k with
      | zero => simp [Verif.collect]
      | succ k => simp [Verif.collect, nextG, h]
    · cases k with
      | zero => simp at hk
      | succ k => simp [Verif.collect, nextG, h]
  | cons h hr ih =>
    refine (Ev.and h ih).mp fun n ⟨h, ih⟩ => ⟨fun k => ?_, fun k hk => ?_⟩
    · cases k with
      | zero => simp [Verif.collect]
      | succ k =>
        simp only [Verif.collect, nextG, h, List.take_succ_cons]
        rw [ih.1 k]
    · cases k with
      | zero => simp at hk
      | succ k =>
        simp only [Verif.collect, nextG, h]
        exact ih.2 k (by simpa using hk)

theorem YE.of_next {g g' : Gen} {w : W} {outs : List Str} {b : Bool} (h : YE E w g' outs b)
    (hs : ∀ o, NextG E g' w o → NextG E g w o) : YE E w g outs b := by
  cases h with
  | stop h => exact .stop (hs _ h)
  | fail h => exact .fail (hs _ h)
  | cons h h' => exact .cons (hs _ h) h'

theorem YEP.of_next {g g' : PFrame} {w : W} {outs} {b : Bool} (h : YEP E w g' outs b)
    (hs : ∀ o, NextP E g' w o → NextP E g w o) : YEP E w g outs b := by
  cases h with
  | stop h => exact .stop (hs _ h)
  | fail h => exact .fail (hs _ h)
  | cons h h' => exact .cons (hs _ h) h'

theorem YES.of_next {coll : Coll} {g g' : SFrame} {w : W} {outs} {b : Bool} (h : YES E w coll g' outs b)
    (hs : ∀ o, NextS E coll g' w o → NextS E coll g w o) : YES E w coll g outs b := by
  cases h with
  | stop h => exact .stop (hs _ h)
  | fail h => exact .fail (hs _ h)
  | cons h h' => exact .cons (hs _ h) h'

theorem YE.done {w : W} : YE E w .done [] false := .stop (NextG.of_step (Ev.of fun _ => rfl))

theorem YE.squash {g : Gen} {w : W} {outs : List Str} {b : Bool} (h : YE E w g outs b) :
    YE E w (.squash g) (outs.map squashWhitespace) b := by
  induction h with
  | stop h => exact .stop (NextG.of_step (Ev.bind (f := fun _ _ => _) h (Ev.of fun _ => rfl)))
  | fail h => exact .fail (NextG.of_step (Ev.bind_err (f := fun _ _ => _) h))
  | cons h _ ih => exact .cons (NextG.of_step (Ev.bind (f := fun _ _ => _) h (Ev.of fun _ => rfl))) ih

/-! ### Products -/

theorem yep_finIn {ctx : Ctx} {cs : List Cmd} {g : Gen} {v : Str} {cur : PFrame} {w : W}
    {yss : List (List Str)} {b : Bool} {z : Run (List Str)} (hc : YEP E w cur yss b)
    (hr : YEP E w (.fin ctx cs g) z.1 z.2) :
    YEP E w (.finIn ctx cs g v cur) (Run.andThen (yss.map (v :: ·), b) z).1
      (Run.andThen (yss.map (v :: ·), b) z).2 := by
  induction hc with
  | stop h =>
    refine YEP.of_next hr fun o ho => NextP.of_step ?_
    exact Ev.bind (f := fun n => _) h ho
  | fail h => exact .fail (NextP.of_step (Ev.bind_err (f := fun _ _ => _) h))
  | @cons _ _ _ _ b h _ ih =>
    have := YEP.cons (NextP.of_step (g := .finIn ctx cs g v _)
      (Ev.bind (f := fun _ _ => _) h (Ev.of fun _ => rfl))) ih
    cases b <;> exact this

theorem yep_fin {ctx : Ctx} {cs : List Cmd} {g : Gen} {w : W} {xs : List Str} {b : Bool}
    {y : Run (List Str)} (hg : YE E w g xs b) (hc : YEP E w (.start ctx cs) y.1 y.2) :
    YEP E w (.fin ctx cs g) (Run.each (fun x => y.map (x :: ·)) b xs).1
      (Run.each (fun x => y.map (x :: ·)) b xs).2 := by
  induction hg with
  | stop h => exact .stop (NextP.of_step (Ev.bind (f := fun _ _ => _) h (Ev.of fun _ => rfl)))
  | fail h => exact .fail (NextP.of_step (Ev.bind_err (f := fun _ _ => _) h))
  | cons h _ ih =>
    refine YEP.of_next (yep_finIn hc ih) fun o ho => NextP.of_step ?_
    exact Ev.bind (f := fun n => _) h ho

theorem yes_finIn {coll : Coll} {ctx : Ctx} {cs : List Cmd} {g : Gen} {v : Str} {cur : SFrame} {w : W}
    {yss : List (List Str)} {b : Bool} {z : Run (List Str)} (hc : YES E w coll cur yss b)
    (hr : YES E w coll (.fin ctx cs g) z.1 z.2) :
    YES E w coll (.finIn ctx cs g v cur) (Run.andThen (yss.map (v :: ·), b) z).1
      (Run.andThen (yss.map (v :: ·), b) z).2 := by
  induction hc with
  | stop h =>
    refine YES.of_next hr fun o ho => NextS.of_step ?_
    exact Ev.bind (f := fun n => _) h ho
  | fail h => exact .fail (NextS.of_step (Ev.bind_err (f := fun _ _ => _) h))
  | @cons _ _ _ _ b h _ ih =>
    have := YES.cons (NextS.of_step (g := .finIn ctx cs g v _)
      (Ev.bind (f := fun _ _ => _) h (Ev.of fun _ => rfl))) ih
    cases b <;> exact this

theorem yes_fin {coll : Coll} {ctx : Ctx} {cs : List Cmd} {g : Gen} {w : W} {xs : List Str} {b : Bool}
    {y : Run (List Str)} (hg : YE E w g xs b) (hc : YES E w coll (.start ctx cs) y.1 y.2) :
    YES E w coll (.fin ctx cs g) (Run.each (fun x => y.map (x :: ·)) b xs).1
      (Run.each (fun x => y.map (x :: ·)) b xs).2 := by
  induction hg with
  | stop h => exact .stop (NextS.of_step (Ev.bind (f := fun _ _ => _) h (Ev.of fun _ => rfl)))
  | fail h => exact .fail (NextS.of_step (Ev.bind_err (f := fun _ _ => _) h))
  | cons h _ ih =>
    refine YES.of_next (yes_finIn hc ih) fun o ho => NextS.of_step ?_
    exact Ev.bind (f := fun n => _) h ho

theorem ye_combSeq {sep : Str} {coll : Coll} {fr : SFrame} {w : W} {tss : List (List Str)} {b : Bool}
    (h : YES E w coll fr tss b) : YE E w (.combSeq sep coll fr) (tss.map (joined sep)) b := by
  induction h with
  | stop h => exact .stop (NextG.of_step (Ev.bind (f := fun _ _ => _) h (Ev.of fun _ => rfl)))
  | fail h => exact .fail (NextG.of_step (Ev.bind_err (f := fun _ _ => _) h))
  | cons h _ ih => exact .cons (NextG.of_step (Ev.bind (f := fun _ _ => _) h (Ev.of fun _ => rfl))) ih

/-! ### Variants -/

theorem ye_combVarIn {ctx : Ctx} {sep : Str} {pend : List (Nat × List Cmd)} {b : Nat} {fr : PFrame}
    {w : W} {tss : List (List Str)} {e : Bool} {R : Run (List Str)} (hP : YEP E w fr tss e)
    (hlen : ∀ t ∈ tss, t.length = b)
    (hrest : ∀ seen, YE E w (.combVar ctx sep seen pend) ((firsts seen R.1).map (joined sep)) R.2) :
    ∀ seen, YE E w (.combVarIn ctx sep seen pend b fr)
      ((firsts seen (Run.andThen (tss, e) R).1).map (joined sep)) (Run.andThen (tss, e) R).2 := by
  induction hP with
  | stop h =>
    intro seen
    refine YE.of_next (hrest seen) fun o ho => NextG.of_step ?_
    exact Ev.bind (f := fun n => _) h ho
  | fail h => exact fun seen => .fail (NextG.of_step (Ev.bind_err (f := fun _ _ => _) h))
  | @cons fr t fr' tss e h _ ih =>
    intro seen
    have ih := ih (fun t ht => hlen t (by simp [ht]))
    have hb : t.length = b := hlen t (by simp)
    have hcons : Run.andThen (t :: tss, e) R = (t :: (Run.andThen (tss, e) R).1, (Run.andThen (tss, e) R).2) := by
      cases e <;> rfl
    rw [hcons, firsts]
    have hiff : ((dedupe (fun s : Str => s) t).length = b ∧ ¬ seen.contains (dedupe (fun s : Str => s) t)) ↔
        (t.Nodup ∧ ¬ seen.contains t) := by
      rw [← hb, dedupe_length_iff]
      constructor
      · rintro ⟨h1, h2⟩; rw [dedupe_of_nodup h1] at h2; exact ⟨h1, h2⟩
      · rintro ⟨h1, h2⟩; rw [dedupe_of_nodup h1]; exact ⟨h1, h2⟩
    by_cases hc : t.Nodup ∧ ¬ seen.contains t
    · rw [if_pos hc]
      refine .cons (NextG.of_step (Ev.bind (f := fun n => _) h (Ev.of fun n => ?_))) (ih (t :: seen))
      dsimp only
      rw [if_pos (hiff.2 hc), dedupe_of_nodup hc.1]
      rfl
    · rw [if_neg hc]
      refine YE.of_next (ih seen) fun o ho => NextG.of_step (Ev.bind (f := fun n => _) h ?_)
      refine ho.mp fun n hn => ?_
      dsimp only
      rw [if_neg (fun h => hc (hiff.1 h))]
      exact hn

theorem ye_combVar {ctx : Ctx} {sep : Str} {w : W} {tup : List Cmd → Run (List Str)}
    {pend : List (Nat × List Cmd)}
    (h : ∀ p ∈ pend, YEP E w (.start ctx p.2) (tup p.2).1 (tup p.2).2 ∧ ∀ t ∈ (tup p.2).1, t.length = p.1) :
    ∀ seen, YE E w (.combVar ctx sep seen pend)
      ((firsts seen (Run.each (fun p => tup p.2) false pend).1).map (joined sep))
      (Run.each (fun p => tup p.2) false pend).2 := by
  induction pend with
  | nil => intro seen; exact .stop (NextG.of_step (Ev.of fun _ => rfl))
  | cons p pend ih =>
    intro seen
    obtain ⟨b, combo⟩ := p
    obtain ⟨h1, h2⟩ := h (b, combo) (by simp)
    have := ye_combVarIn (ctx := ctx) (sep := sep) (pend := pend) h1 h2
      (ih (fun p hp => h p (by simp [hp]))) seen
    exact YE.of_next this fun o ho => NextG.of_step ho

theorem productR_length {ls : List (Run Str)} {t : List Str} (h : t ∈ (productR ls).1) :
    t.length = ls.length := by
  induction ls generalizing t with
  | nil => simp [productR] at h; simp [h]
  | cons l ls ih =>
    obtain ⟨xs, b⟩ := l
    simp only [productR] at h
    induction xs with
    | nil => simp [Run.each] at h
    | cons x xs ihx =>
      have hx : ∀ t ∈ ((productR ls).map (x :: ·)).1, t.length = ls.length + 1 := by
        intro t ht
        obtain ⟨t', ht', rfl⟩ := List.mem_map.1 ht
        simp [ih ht']
      simp only [Run.each, Run.andThen] at h
      split at h
      · simpa using hx t h
      · rcases List.mem_append.1 h with h | h
        · simpa using hx t h
        · exact ihx h

/-! ### Templates -/

theorem basic_finite {c : Cmd} (h : Basic c) : Finite c.method := by cases h <;> assumption

theorem mkGen_basic {u : Option Cmd} {c : Cmd} (h : Basic c) {ctx : Ctx}
    (hm : ctx.method = .comb) : mkGen u ctx c = .ok (.start ctx c) := by
  have he : ctx.withMethod (effMethod ctx.method c.method) = ctx := by
    rw [hm, effMethod_finite (basic_finite h), withMethod_comb hm]
  unfold mkGen chainFuel
  cases h with
  | wrap =>
    simp only [mkGenF, he]
    rw [if_neg (by rw [hm]; simp)]
  | _ => simp [mkGenF, he]

theorem mkGens_basic {u : Option Cmd} {cs : List Cmd} (h : ∀ c ∈ cs, Basic c) {ctx : Ctx}
    (hm : ctx.method = .comb) : mkGens u ctx cs = .ok (cs.map (Gen.start ctx)) := by
  induction cs with
  | nil => rfl
  | cons c cs ih =>
    simp [mkGens, mkGen_basic (h c (by simp)) hm, ih (fun c hc => h c (by simp [hc]))]

theorem effective_basic {c : Cmd} (h : Basic c) {ctx : Ctx} (hm : ctx.method = .comb) :
    (ctx.effective c).nonfinite = false := by
  unfold Ctx.effective
  rcases (basic_finite h) with h | h <;> simp [h, hm, Method.nonfinite]

theorem yep_basic {ws : Bool} {ctx : Ctx} (hm : ctx.method = .comb) {w : W} {cs : List Cmd}
    (h : ∀ c ∈ cs, Basic c) (hy : ∀ c ∈ cs, YE E w (.start ctx c) (runs ws c).1 (runs ws c).2) :
    YEP E w (.start ctx cs) (productR (cs.map (runs ws))).1 (productR (cs.map (runs ws))).2 := by
  induction cs with
  | nil =>
    exact .cons (NextP.of_step (Ev.of fun _ => rfl)) (.stop (NextP.of_step (Ev.of fun _ => rfl)))
  | cons c cs ih =>
    have ih := ih (fun c hc => h c (by simp [hc])) (fun c hc => hy c (by simp [hc]))
    refine YEP.of_next (yep_fin (hy c (by simp)) ih) fun o ho => NextP.of_step ?_
    refine ho.mp fun n hn => ?_
    simp only [stepP]
    rw [M.bind_of_ok (a := .start ctx c) (w' := w) (by rw [mkGen_basic (h c (by simp)) hm]; rfl)]
    rw [if_neg (by rw [effective_basic (h c (by simp)) hm]; simp)]
    exact hn

theorem yes_basic {ws : Bool} {ctx : Ctx} (hm : ctx.method = .comb) {w : W} {coll : Coll}
    {cs : List Cmd} (h : ∀ c ∈ cs, Basic c)
    (hy : ∀ c ∈ cs, YE E w (.start ctx c) (runs ws c).1 (runs ws c).2) :
    YES E w coll (.start ctx cs) (productR (cs.map (runs ws))).1 (productR (cs.map (runs ws))).2 := by
  induction cs with
  | nil =>
    exact .cons (NextS.of_step (Ev.of fun _ => rfl)) (.stop (NextS.of_step (Ev.of fun _ => rfl)))
  | cons c cs ih =>
    have ih := ih (fun c hc => h c (by simp [hc])) (fun c hc => hy c (by simp [hc]))
    refine YES.of_next (yes_fin (hy c (by simp)) ih) fun o ho => NextS.of_step ?_
    refine ho.mp fun n hn => ?_
    simp only [stepS]
    rw [if_neg (by rw [effective_basic (h c (by simp)) hm]; simp)]
    rw [M.bind_of_ok (a := .start ctx c) (w' := w) (by rw [mkGen_basic (h c (by simp)) hm]; rfl)]
    exact hn

theorem assigns_basic {r : Recs W} {ctx : Ctx} {w : W} {cs : List Cmd}
    (h : ∀ c ∈ cs, Basic c) : r.assigns E ctx cs w = .ok (cs, []) w := by
  induction cs with
  | nil => rfl
  | cons c cs ih =>
    have ih := ih (fun c hc => h c (by simp [hc]))
    have hc := h c (by simp)
    cases hc <;> (unfold Recs.assigns; rw [M.bind_of_ok ih]; rfl)

theorem firstValues_basic {ws : Bool} {ctx : Ctx} {w : W} {cs : List Cmd}
    (hy : ∀ c ∈ cs, YE E w (.start ctx c) (runs ws c).1 (runs ws c).2) :
    ((∀ c ∈ cs, (runs ws c).1 ≠ []) →
      ∃ coll, Ev fun n => (recs E n).firstValues (cs.zip (cs.map (Gen.start ctx))) w = .ok coll w) ∧
    ((∃ c ∈ cs, (runs ws c).1 = []) →
      Ev fun n => (recs E n).firstValues (cs.zip (cs.map (Gen.start ctx))) w = .err .runtime w) := by
  induction cs with
  | nil => exact ⟨fun _ => ⟨[], Ev.of fun _ => rfl⟩, by simp⟩
  | cons c cs ih =>
    obtain ⟨ih1, ih2⟩ := ih (fun c hc => hy c (by simp [hc]))
    have h1 := hy c (by simp)
    generalize hr : runs ws c = r at h1
    obtain ⟨xs, b⟩ := r
    simp only [List.map_cons, List.zip_cons_cons, Recs.firstValues]
    dsimp only at h1
    cases h1 with
    | stop h1 =>
      refine ⟨fun h => absurd (by rw [hr]) (h c (by simp)), fun _ => ?_⟩
      exact Ev.bind_err (f := fun n => _) (Ev.bind (f := fun n => _) h1 (Ev.of fun n => rfl))
    | fail h1 =>
      refine ⟨fun h => absurd (by rw [hr]) (h c (by simp)), fun _ => ?_⟩
      exact Ev.bind_err (f := fun n => _) (Ev.bind_err (f := fun n => _) h1)
    | @cons _ v g' vs _ h1 _ =>
      have hn : Ev fun n => (recs E n).next! (.start ctx c) w = .ok (v, g') w :=
        Ev.bind (f := fun n => _) h1 (Ev.of fun n => rfl)
      refine ⟨fun h => ?_, ?_⟩
      · obtain ⟨coll, ih1⟩ := ih1 (fun c hc => h c (by simp [hc]))
        exact ⟨(c, g', some v) :: coll, Ev.bind (f := fun n => _) hn
          (Ev.bind (f := fun n => _) ih1 (Ev.of fun n => rfl))⟩
      · rintro ⟨d, hd, hd0⟩
        rcases List.mem_cons.1 hd with rfl | hd
        · rw [hr] at hd0; simp at hd0
        · exact Ev.bind (f := fun n => _) hn (Ev.bind_err (f := fun n => _) (ih2 ⟨d, hd, hd0⟩))

theorem ye_start {ctx : Ctx} {c : Cmd} {w : W} {g : Gen} {outs : List Str} {b : Bool}
    (hl : ∀ s m, c ≠ .lit s m) (hs : Ev fun n => startG E (recs E n) ctx c w = .ok g w)
    (h : YE E w g outs b) : YE E w (.start ctx c) outs b := by
  refine YE.of_next h fun o ho => NextG.of_step ?_
  have key : Ev fun n => (startG E (recs E n) ctx c >>= fun g => (recs E n).G g) w = o :=
    Ev.bind (f := fun n g => (recs E n).G g) hs ho
  cases c with
  | lit s m => exact absurd rfl (hl s m)
  | _ => exact key

theorem ye_start_fail {ctx : Ctx} {c : Cmd} {w : W}
    (hl : ∀ s m, c ≠ .lit s m) (hs : Ev fun n => startG E (recs E n) ctx c w = .err .runtime w) :
    YE E w (.start ctx c) [] true := by
  refine .fail (NextG.of_step ?_)
  have key : Ev fun n => (startG E (recs E n) ctx c >>= fun g => (recs E n).G g) w = .err .runtime w :=
    Ev.bind_err (f := fun n g => (recs E n).G g) hs
  cases c with
  | lit s m => exact absurd rfl (hl s m)
  | _ => exact key

theorem ye_combWrapIn {ctx : Ctx} {inner : Cmd} {wg ig : Gen} {x : Str} {w : W} {ys : List Str} {b : Bool}
    {R : Run Str} (hy : YE E w ig ys b) (hr : YE E w (.combWrap ctx inner wg) R.1 R.2) :
    YE E w (.combWrapIn ctx inner wg x ig) (Run.andThen (ys.map (wrapWith x), b) R).1
      (Run.andThen (ys.map (wrapWith x), b) R).2 := by
  induction hy with
  | stop h => exact YE.of_next hr fun o ho => NextG.of_step (Ev.bind (f := fun n => _) h ho)
  | fail h => exact .fail (NextG.of_step (Ev.bind_err (f := fun n => _) h))
  | @cons _ _ _ _ b h _ ih =>
    have := YE.cons (NextG.of_step (g := .combWrapIn ctx inner wg x _)
      (Ev.bind (f := fun n => _) h (Ev.of fun _ => rfl))) ih
    cases b <;> exact this

theorem ye_combWrap {ctx : Ctx} {inner : Cmd} {wg ig : Gen} {w : W} {xs : List Str} {b : Bool} {y : Run Str}
    (hi : sampleGen E ctx (.inr inner) = .ok ig) (hy : YE E w ig y.1 y.2) (hx : YE E w wg xs b) :
    YE E w (.combWrap ctx inner wg) (Run.each (fun x => y.map (wrapWith x)) b xs).1
      (Run.each (fun x => y.map (wrapWith x)) b xs).2 := by
  induction hx with
  | stop h => exact .stop (NextG.of_step (Ev.bind (f := fun n => _) h (Ev.of fun _ => rfl)))
  | fail h => exact .fail (NextG.of_step (Ev.bind_err (f := fun n => _) h))
  | cons h _ ih =>
    refine YE.of_next (ye_combWrapIn hy ih) fun o ho =>
      NextG.of_step (Ev.bind (f := fun n => _) h ?_)
    refine ho.mp fun n hn => ?_
    dsimp only
    rw [M.bind_of_ok (a := ig) (w' := w) (by rw [hi]; rfl)]
    exact hn

theorem ye_sampleGen_cmd {ctx : Ctx} {c : Cmd} {w : W} (h : Basic c) (hm : ctx.method = .comb)
    (hy : YE E w (.start ctx c) (runs E.ignoreWs c).1 (runs E.ignoreWs c).2) :
    ∃ g, sampleGen E ctx (.inr c) = .ok g ∧
      YE E w g ((unlessEmptyR c (runs E.ignoreWs c)).1.map (squashIf E.ignoreWs))
        (unlessEmptyR c (runs E.ignoreWs c)).2 := by
  unfold sampleGen unlessEmptyR
  by_cases ht : c.truthy = true
  · simp only [ht, mkGen_basic h hm, Bool.not_true, Bool.false_eq_true, if_false, if_true]
    refine ⟨_, rfl, ?_⟩
    by_cases hw : E.ignoreWs = true
    · have : squashIf E.ignoreWs = squashWhitespace := by funext s; simp [squashIf, hw]
      rw [this, if_pos hw]
      exact YE.squash hy
    · have : squashIf E.ignoreWs = id := by funext s; simp [squashIf, hw]
      rw [this, List.map_id, if_neg hw]
      exact hy
  · simp only [ht, Bool.not_false, if_true, Bool.false_eq_true, if_false]
    exact ⟨_, rfl, YE.done⟩

theorem runsL_eq (ws : Bool) (cs : List Cmd) : runsL ws cs = cs.map (runs ws) := by
  induction cs with
  | nil => rfl
  | cons c cs ih => simp [runsL, ih]

theorem runsO_eq (ws : Bool) (os : List (Cmd × Rat)) :
    runsO ws os = (os.map (·.1)).map fun c => (c, runs ws c) := by
  induction os with
  | nil => rfl
  | cons o os ih => obtain ⟨c, x⟩ := o; simp [runsO, ih]

theorem fruitless_iff (ws : Bool) (cs : List Cmd) :
    fruitless ws cs = true ↔ ∃ c ∈ cs.filter (fun c => c.method ≠ some .comb), (runs ws c).1 = [] := by
  induction cs with
  | nil => simp [fruitless]
  | cons c cs ih =>
    rw [fruitless, Bool.or_eq_true, ih]
    by_cases h : c.method ≠ some .comb
    · rw [List.filter_cons_of_pos (by simpa using h)]
      simp [h]
    · rw [List.filter_cons_of_neg (by simpa using h)]
      simp [h]

theorem each_map {α β γ : Type} (f : β → Run γ) (g : α → β) (b : Bool) (l : List α) :
    Run.each f b (l.map g) = Run.each (fun x => f (g x)) b l := by
  induction l with
  | nil => rfl
  | cons x l ih => simp [Run.each, ih]

theorem each_congr {α β : Type} {f g : α → Run β} {l : List α} (b : Bool) (h : ∀ x ∈ l, f x = g x) :
    Run.each f b l = Run.each g b l := by
  induction l with
  | nil => rfl
  | cons x l ih => rw [Run.each, Run.each, h x (by simp), ih fun y hy => h y (by simp [hy])]

theorem each_out {α β γ : Type} (f : α → Run β) (φ : β → γ) (b : Bool) (l : List α) :
    Run.each (fun x => (f x).map φ) b l = (Run.each f b l).map φ := by
  induction l with
  | nil => rfl
  | cons x l ih =>
    rw [Run.each, Run.each, ih]
    simp only [Run.andThen, Run.map]
    generalize f x = r
    obtain ⟨a, b⟩ := r
    cases b <;> simp

theorem productR_pad (rs : List (Run Str)) :
    productR (([[]], false) :: rs ++ [([[]], false)]) = (productR rs).map fun t => [] :: t ++ [[]] := by
  have h1 : ∀ rs : List (Run Str), productR (rs ++ [([[]], false)]) = (productR rs).map fun t => t ++ [[]] := by
    intro rs
    induction rs with
    | nil => rfl
    | cons r rs ih =>
      rw [List.cons_append, productR, productR, ih]
      rw [← each_out]
      refine each_congr _ fun x _ => ?_
      simp [Run.map]
  rw [List.cons_append, productR, h1]
  simp only [Run.each, Run.andThen, Run.map]
  generalize productR rs = r
  obtain ⟨a, b⟩ := r
  cases b <;> simp

/-- Main lemma: in a combinatorial context a template of literals, sequences, variants and wraps yields
its run. -/
theorem ye_basic {c : Cmd} (h : Basic c) (w : W) : ∀ ctx : Ctx, ctx.method = .comb →
    YE E w (.start ctx c) (runs E.ignoreWs c).1 (runs E.ignoreWs c).2 := by
  induction h with
  | @lit s m hf =>
    intro ctx hm
    simp only [runs]
    refine .cons (NextG.of_step (Ev.of fun n => ?_)) YE.done
    simp only [stepG, hm]; rfl
  | @seq toks sep m hf hp ih =>
    intro ctx hm
    have hy : ∀ c ∈ toks, YE E w (.start ctx c) (runs E.ignoreWs c).1 (runs E.ignoreWs c).2 :=
      fun c hc => ih c hc ctx hm
    have hv : ctx.withVars [] = ctx := rfl
    have hsub : ∀ c ∈ toks.filter (fun c => c.method ≠ some .comb), c ∈ toks :=
      fun c hc => (List.mem_filter.1 hc).1
    obtain ⟨hfv1, hfv2⟩ := firstValues_basic (E := E) (ws := E.ignoreWs) (ctx := ctx) (w := w)
      (cs := toks.filter (fun c => c.method ≠ some .comb)) (fun c hc => hy c (hsub c hc))
    have hfi := fruitless_iff E.ignoreWs toks
    rw [runs]
    by_cases hfr : fruitless E.ignoreWs toks = true
    · rw [if_pos hfr]
      refine ye_start_fail (by simp) ?_
      refine (hfv2 (hfi.1 hfr)).mp fun n hn => ?_
      simp only [startG]
      rw [M.bind_of_ok (assigns_basic hp)]
      simp only [hm, hv]
      rw [M.bind_of_err (e := .runtime) (w' := w)]
      simp only [Recs.mkColl]
      rw [mkGens_basic (fun c hc => hp c (hsub c hc)) hm]
      exact hn
    · rw [if_neg hfr]
      obtain ⟨coll, hcoll⟩ := hfv1 (fun c hc h0 => hfr (hfi.2 ⟨c, hc, h0⟩))
      have hsent : Basic sentinel := .lit (Or.inr rfl)
      have hsy : YE E w (.start ctx sentinel) (runs E.ignoreWs sentinel).1 (runs E.ignoreWs sentinel).2 := by
        rw [sentinel, runs]
        refine .cons (NextG.of_step (Ev.of fun n => ?_)) YE.done
        simp only [stepG, hm]; rfl
      have hall : ∀ c ∈ sentinel :: toks ++ [sentinel], Basic c ∧
          YE E w (.start ctx c) (runs E.ignoreWs c).1 (runs E.ignoreWs c).2 := by
        intro c hc
        simp only [List.cons_append, List.mem_cons, List.mem_append, List.not_mem_nil, or_false] at hc
        rcases hc with rfl | hc | rfl
        · exact ⟨hsent, hsy⟩
        · exact ⟨hp c hc, hy c hc⟩
        · exact ⟨hsent, hsy⟩
      have hseq := ye_combSeq (sep := sep) (yes_basic hm (coll := coll) (fun c hc => (hall c hc).1)
        (fun c hc => (hall c hc).2))
      have hen : (productR ((sentinel :: toks ++ [sentinel]).map (runs E.ignoreWs))) =
          (productR (runsL E.ignoreWs toks)).map fun t => [] :: t ++ [[]] := by
        have : (sentinel :: toks ++ [sentinel]).map (runs E.ignoreWs) =
            ([[]], false) :: toks.map (runs E.ignoreWs) ++ [([[]], false)] := by
          simp [sentinel, runs]
        rw [this, productR_pad, runsL_eq]
      rw [hen] at hseq
      have hseq' : YE E w (.combSeq sep coll (.start ctx (sentinel :: toks ++ [sentinel])))
          ((productR (runsL E.ignoreWs toks)).map fun t => joined sep ([] :: t ++ [[]])).1
          ((productR (runsL E.ignoreWs toks)).map fun t => joined sep ([] :: t ++ [[]])).2 := by
        simpa [Run.map, Function.comp_def] using hseq
      refine ye_start (by simp) ?_ hseq'
      refine hcoll.mp fun n hn => ?_
      simp only [startG]
      rw [M.bind_of_ok (assigns_basic hp)]
      simp only [hm, hv]
      rw [M.bind_of_ok (a := coll) (w' := w)]
      · rfl
      · simp only [Recs.mkColl]
        rw [mkGens_basic (fun c hc => hp c (hsub c hc)) hm]
        exact hn
  | @variant opts lo hi sep m hf hp ih =>
    intro ctx hm
    have hall : ∀ c ∈ opts.map (·.1), Basic c := by
      intro c hc
      obtain ⟨o, ho, rfl⟩ := List.mem_map.1 hc
      exact hp o ho
    have hy : ∀ c ∈ opts.map (·.1), YE E w (.start ctx c) (runs E.ignoreWs c).1 (runs E.ignoreWs c).2 := by
      intro c hc
      obtain ⟨o, ho, rfl⟩ := List.mem_map.1 hc
      exact ih o ho ctx hm
    have hv : opts ≠ [] → YE E w (.combVar ctx sep [] (boundCombos (opts.map (·.1))
        (adjustBounds opts.length lo hi).1 (adjustBounds opts.length lo hi).2))
        (runs E.ignoreWs (.variant opts lo hi sep m)).1 (runs E.ignoreWs (.variant opts lo hi sep m)).2 := by
      intro hne
      have := ye_combVar (E := E) (ctx := ctx) (sep := sep) (w := w)
        (tup := fun combo => productR (combo.map (runs E.ignoreWs)))
        (pend := boundCombos (opts.map (·.1)) (adjustBounds opts.length lo hi).1
          (adjustBounds opts.length lo hi).2) (by
          rintro ⟨b, combo⟩ hmem
          obtain ⟨-, -, hc⟩ := (mem_boundCombos (adjust_nonneg _ _ _)).1 hmem
          obtain ⟨hlen, -, hsub⟩ := mem_getCombos.1 hc
          refine ⟨yep_basic hm (fun c hc => hall c (hsub c hc)) (fun c hc => hy c (hsub c hc)), ?_⟩
          intro t ht
          rw [productR_length ht, List.length_map, hlen]) []
      rw [firsts_eq] at this
      have hinj : Function.Injective (fun c : Cmd => (c, runs E.ignoreWs c)) := by
        intro a b h; exact (Prod.mk.inj h).1
      have hlist : Run.each (fun p => productR (p.2.map (runs E.ignoreWs))) false
          (boundCombos (opts.map (·.1)) (adjustBounds opts.length lo hi).1
            (adjustBounds opts.length lo hi).2) =
          Run.each (fun sel => productR (sel.map (·.2))) false
            ((sizes opts.length lo hi).flatMap fun k => selections k (runsO E.ignoreWs opts)) := by
        rw [runsO_eq, boundCombos_flat]
        simp only [selections_map _ hinj]
        have e1 : ((sizes opts.length lo hi).flatMap fun k => (selections k (opts.map (·.1))).map fun c => (k, c)).map
            (fun p => p.2.map (runs E.ignoreWs)) =
            ((sizes opts.length lo hi).flatMap fun k => (selections k (opts.map (·.1))).map
              fun t => t.map fun c => (c, runs E.ignoreWs c)).map (fun sel => sel.map (·.2)) := by
          simp only [List.map_flatMap, List.map_map, Function.comp_def]
        have e2 := each_map productR (fun p : Nat × List Cmd => p.2.map (runs E.ignoreWs)) false
          ((sizes opts.length lo hi).flatMap fun k => (selections k (opts.map (·.1))).map fun c => (k, c))
        rw [← e2, e1, each_map]
      rw [hlist] at this
      rw [runs, if_neg (by simpa using hne)]
      simpa using this
    match opts, hp, hv with
    | [], _, hv =>
      refine ye_start (by simp) (g := .done) (Ev.of fun n => rfl) ?_
      have : runs E.ignoreWs (.variant [] lo hi sep m) = ([], false) := by simp [runs]
      rw [this]; exact YE.done
    | [(c, x)], hp, hv =>
      refine ye_start (by simp) (Ev.of fun n => ?_) (hv (by simp))
      have hc := hp (c, x) (by simp)
      cases hc <;> simp only [startG, hm] <;> rfl
    | o1 :: o2 :: os, hp, hv =>
      refine ye_start (by simp) (Ev.of fun n => ?_) (hv (by simp))
      simp only [startG, hm]; rfl
  | @wrap wr i m hf hw hi ihw ihi =>
    intro ctx hm
    obtain ⟨wg, hwg, hwy⟩ := ye_sampleGen_cmd hw hm (ihw ctx hm)
    obtain ⟨ig, hig, hiy⟩ := ye_sampleGen_cmd hi hm (ihi ctx hm)
    have := ye_combWrap (ctx := ctx) (inner := i)
      (y := (unlessEmptyR i (runs E.ignoreWs i)).map (squashIf E.ignoreWs)) hig hiy hwy
    rw [each_map] at this
    refine ye_start (by simp) (Ev.of fun n => ?_) ?_ (g := .combWrap ctx i wg)
    · simp only [startG, hm, hwg]; rfl
    · rw [runs]
      simpa [Run.map, Function.comp_def] using this

/-! ### Templates without fruitless tokens -/

theorem each_false {α β : Type} {f : α → Run β} {g : α → List β} {l : List α}
    (h : ∀ x ∈ l, f x = (g x, false)) : Run.each f false l = (l.flatMap g, false) := by
  induction l with
  | nil => rfl
  | cons x l ih =>
    rw [Run.each, h x (by simp), ih fun y hy => h y (by simp [hy])]
    simp [Run.andThen]

theorem productR_false {α : Type} (xss : List (List α)) :
    productR (xss.map fun xs => (xs, false)) = (product xss, false) := by
  induction xss with
  | nil => rfl
  | cons xs xss ih =>
    simp only [List.map_cons, productR, ih, product]
    exact each_false fun x _ => rfl

theorem basic_of_plain {ws : Bool} {c : Cmd} (h : Plain ws c) : Basic c := by
  induction h with
  | lit h => exact .lit h
  | seq h _ _ ih => exact .seq h ih
  | variant h _ ih => exact .variant h ih
  | wrap h _ _ ih1 ih2 => exact .wrap h ih1 ih2

theorem runs_plain {ws : Bool} {c : Cmd} (h : Plain ws c) : runs ws c = (enum ws c, false) := by
  induction h with
  | lit h => simp [runs, enum]
  | @seq toks sep m h hp hne ih =>
    rw [runs, enum, if_neg, runsL_eq, enumL_eq]
    · have : toks.map (runs ws) = (toks.map (enum ws)).map fun xs => (xs, false) := by
        rw [List.map_map]
        exact List.map_congr_left fun c hc => ih c hc
      rw [this, productR_false]
      rfl
    · rw [fruitless_iff]
      rintro ⟨c, hc, h0⟩
      obtain ⟨h1, h2⟩ := List.mem_filter.1 hc
      rw [ih c h1] at h0
      exact hne c h1 (by simpa using h2) h0
  | @variant opts lo hi sep m h hp ih =>
    rw [runs, enum]
    split
    · rfl
    · have hO : runsO ws opts = (enumO ws opts).map fun p => (p.1, (p.2, false)) := by
        rw [runsO_eq, enumO_eq, List.map_map, List.map_map, List.map_map]
        refine List.map_congr_left fun o ho => ?_
        simp [ih o ho]
      have hinj : Function.Injective fun p : Cmd × List Str => (p.1, (p.2, false)) := by
        rintro ⟨a, b⟩ ⟨c, d⟩ h
        simp only [Prod.mk.injEq, and_true] at h
        rw [h.1, h.2]
      have hs : ((sizes opts.length lo hi).flatMap fun k => selections k (runsO ws opts)) =
          ((sizes opts.length lo hi).flatMap fun k => selections k (enumO ws opts)).map
            fun t => t.map fun p => (p.1, (p.2, false)) := by
        rw [hO, List.map_flatMap]
        congr 1
        funext k
        exact selections_map _ hinj k _
      have he : Run.each (fun sel => productR (sel.map (·.2))) false
          ((sizes opts.length lo hi).flatMap fun k => selections k (runsO ws opts)) =
          (((sizes opts.length lo hi).flatMap fun k => selections k (enumO ws opts)).flatMap
            fun sel => product (sel.map (·.2)), false) := by
        rw [hs, each_map]
        refine each_false fun sel _ => ?_
        rw [← productR_false]
        simp [List.map_map, Function.comp_def]
      rw [he]
  | @wrap w i m h hw hi ihw ihi =>
    have hu : ∀ c, runs ws c = (enum ws c, false) → unlessEmptyR c (runs ws c) = (unlessEmpty c (enum ws c), false) := by
      intro c hc
      unfold unlessEmptyR unlessEmpty
      rw [hc]; split <;> rfl
    rw [runs, enum, hu w ihw, hu i ihi]
    exact each_false fun x _ => rfl

end Verif
