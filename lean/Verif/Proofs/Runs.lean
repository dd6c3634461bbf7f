import Verif.Proofs.Choose
/-!
Traces of generators, given enough fuel.
-/

namespace Verif
variable {W : Type}

/-- True for all sufficiently large fuels. -/
def Ev (P : Nat → Prop) : Prop := ∃ N, ∀ n ≥ N, P n

theorem Ev.of {P : Nat → Prop} (h : ∀ n, P n) : Ev P := ⟨0, fun n _ => h n⟩

theorem Ev.mp {P Q : Nat → Prop} (hP : Ev P) (h : ∀ n, P n → Q n) : Ev Q := by
  obtain ⟨N, hP⟩ := hP
  exact ⟨N, fun n hn => h n (hP n hn)⟩

theorem Ev.and {P Q : Nat → Prop} (hP : Ev P) (hQ : Ev Q) : Ev (fun n => P n ∧ Q n) := by
  obtain ⟨N, hP⟩ := hP; obtain ⟨M, hQ⟩ := hQ
  exact ⟨max N M, fun n hn => ⟨hP n (by omega), hQ n (by omega)⟩⟩

theorem Ev.succ {P : Nat → Prop} (h : Ev (fun n => P (n + 1))) : Ev P := by
  obtain ⟨N, h⟩ := h
  refine ⟨N + 1, fun n hn => ?_⟩
  cases n with
  | zero => omega
  | succ n => exact h n (by omega)

theorem Ev.bind {α β : Type} {x : Nat → M W α} {f : Nat → α → M W β} {w w1 : W} {a : α} {o : Res W β}
    (hx : Ev (fun n => x n w = .ok a w1)) (hf : Ev (fun n => f n a w1 = o)) :
    Ev (fun n => (x n >>= f n) w = o) :=
  (hx.and hf).mp (fun n ⟨h1, h2⟩ => by rw [M.bind_of_ok h1, h2])

theorem Ev.bind_err {α β : Type} {x : Nat → M W α} {f : Nat → α → M W β} {w w1 : W} {e : Err}
    (hx : Ev (fun n => x n w = .err e w1)) : Ev (fun n => (x n >>= f n) w = .err e w1) :=
  hx.mp (fun n h1 => by rw [M.bind_of_err h1])

/-- With enough fuel, `next` of a text generator gives this result. -/
def NextG (E : Env W) (g : Gen) (w : W) (o : Res W (Option (Str × Gen))) : Prop :=
  Ev fun n => (recs E n).G g w = o

/-- With enough fuel, `next` of a combination sampler gives this result. -/
def NextA (E : Env W) (a : Arr) (w : W) (o : Res W (Option (List Str × Arr))) : Prop :=
  Ev fun n => (recs E n).A a w = o

/-- With enough fuel, `next` of `get_sequence` gives this result. -/
def NextS (E : Env W) (coll : Coll) (fr : SFrame) (w : W)
    (o : Res W (Coll × Option (List Str × SFrame))) : Prop :=
  Ev fun n => (recs E n).S coll fr w = o

/-- With enough fuel, `next` of `_combo_to_prompt` gives this result. -/
def NextP (E : Env W) (fr : PFrame) (w : W) (o : Res W (Option (List Str × PFrame))) : Prop :=
  Ev fun n => (recs E n).P fr w = o

section
variable {E : Env W}

theorem NextG.of_step {g : Gen} {w : W} {o} (h : Ev fun n => stepG E (recs E n) g w = o) :
    NextG E g w o := Ev.succ h
theorem NextA.of_step {g : Arr} {w : W} {o} (h : Ev fun n => stepA E (recs E n) g w = o) :
    NextA E g w o := Ev.succ h
theorem NextS.of_step {coll : Coll} {g : SFrame} {w : W} {o}
    (h : Ev fun n => stepS E (recs E n) coll g w = o) : NextS E coll g w o := Ev.succ h
theorem NextP.of_step {g : PFrame} {w : W} {o} (h : Ev fun n => stepP E (recs E n) g w = o) :
    NextP E g w o := Ev.succ h

theorem NextG.unique {g : Gen} {w : W} {o o'} (h : NextG E g w o) (h' : NextG E g w o') : o = o' := by
  obtain ⟨N, h⟩ := h; obtain ⟨N', h'⟩ := h'
  rw [← h (max N N') (by omega), h' (max N N') (by omega)]

/-! ### Generators that leave the world alone and stop -/

/-- Iterating `g` in world `w` produces exactly `outs` and stops; the world never changes. -/
inductive Yields (E : Env W) (w : W) : Gen → List Str → Prop
  | stop {g} : NextG E g w (.ok none w) → Yields E w g []
  | cons {g v g' vs} : NextG E g w (.ok (some (v, g')) w) → Yields E w g' vs → Yields E w g (v :: vs)

/-- The same for `get_sequence`, whose collection does not change either. -/
inductive YieldsS (E : Env W) (w : W) (coll : Coll) : SFrame → List (List Str) → Prop
  | stop {fr} : NextS E coll fr w (.ok (coll, none) w) → YieldsS E w coll fr []
  | cons {fr v fr' vs} : NextS E coll fr w (.ok (coll, some (v, fr')) w) → YieldsS E w coll fr' vs →
      YieldsS E w coll fr (v :: vs)

/-- The same for `_combo_to_prompt`. -/
inductive YieldsP (E : Env W) (w : W) : PFrame → List (List Str) → Prop
  | stop {fr} : NextP E fr w (.ok none w) → YieldsP E w fr []
  | cons {fr v fr' vs} : NextP E fr w (.ok (some (v, fr')) w) → YieldsP E w fr' vs →
      YieldsP E w fr (v :: vs)

theorem Yields.collect {g : Gen} {w : W} {outs : List Str} (h : Yields E w g outs) :
    Ev fun n => (∀ k, (collect E n k g w).1 = outs.take k) ∧
      (∀ k, outs.length < k → (Verif.collect E n k g w).2 = .stop w) := by
  induction h with
  | stop h =>
    refine h.mp fun n h => ⟨fun k => ?_, fun k hk => ?_⟩
    · cases k with
      | zero => simp [Verif.collect]
      | succ k => simp [Verif.collect, nextG, h]
    · cases k with
      | zero => simp at hk
      | succ k => simp [Verif.collect, nextG, h]
  | cons h hr ih =>
    refine (Ev.and h ih).mp fun n ⟨h, ih⟩ => ⟨fun k => ?_, fun k hk => ?_⟩
    · cases k with
      | zero => simp [Verif.collect]
      | succ k =>
        simp only [Verif.collect, nextG, h, List.take_succ_cons]
        rw [ih.1 k]
    · cases k with
      | zero => simp at hk
      | succ k =>
        simp only [Verif.collect, nextG, h]
        exact ih.2 k (by simpa using hk)

/-- If `g` behaves like `g'` from its first `next` on, it yields the same. -/
theorem Yields.of_next {g g' : Gen} {w : W} {outs : List Str} (h : Yields E w g' outs)
    (hs : ∀ o, NextG E g' w o → NextG E g w o) : Yields E w g outs := by
  cases h with
  | stop h => exact .stop (hs _ h)
  | cons h h' => exact .cons (hs _ h) h'

theorem YieldsP.of_next {g g' : PFrame} {w : W} {outs} (h : YieldsP E w g' outs)
    (hs : ∀ o, NextP E g' w o → NextP E g w o) : YieldsP E w g outs := by
  cases h with
  | stop h => exact .stop (hs _ h)
  | cons h h' => exact .cons (hs _ h) h'

theorem YieldsS.of_next {coll : Coll} {g g' : SFrame} {w : W} {outs} (h : YieldsS E w coll g' outs)
    (hs : ∀ o, NextS E coll g' w o → NextS E coll g w o) : YieldsS E w coll g outs := by
  cases h with
  | stop h => exact .stop (hs _ h)
  | cons h h' => exact .cons (hs _ h) h'

theorem Yields.done {w : W} : Yields E w .done [] := .stop (NextG.of_step (Ev.of fun _ => rfl))

/-- Whitespace squashing maps over the output. -/
theorem Yields.squash {g : Gen} {w : W} {outs : List Str} (h : Yields E w g outs) :
    Yields E w (.squash g) (outs.map squashWhitespace) := by
  induction h with
  | stop h => exact .stop (NextG.of_step (Ev.bind (f := fun _ _ => _) h (Ev.of fun _ => rfl)))
  | cons h _ ih => exact .cons (NextG.of_step (Ev.bind (f := fun _ _ => _) h (Ev.of fun _ => rfl))) ih

/-! ### Products -/

/-- `_combo_to_prompt` inside one value of the first command. -/
theorem yieldsP_finIn {ctx : Ctx} {cs : List Cmd} {g : Gen} {v : Str} {cur : PFrame} {w : W}
    {yss zss : List (List Str)} (hc : YieldsP E w cur yss) (hr : YieldsP E w (.fin ctx cs g) zss) :
    YieldsP E w (.finIn ctx cs g v cur) (yss.map (v :: ·) ++ zss) := by
  induction hc with
  | stop h =>
    refine YieldsP.of_next hr fun o ho => NextP.of_step ?_
    exact Ev.bind (f := fun n => _) h ho
  | cons h _ ih => exact .cons (NextP.of_step (Ev.bind (f := fun _ _ => _) h (Ev.of fun _ => rfl))) ih

/-- `_combo_to_prompt` is the product of the first command's texts and the rest. -/
theorem yieldsP_fin {ctx : Ctx} {cs : List Cmd} {g : Gen} {w : W} {xs : List Str}
    {yss : List (List Str)} (hg : Yields E w g xs) (hc : YieldsP E w (.start ctx cs) yss) :
    YieldsP E w (.fin ctx cs g) (xs.flatMap fun x => yss.map (x :: ·)) := by
  induction hg with
  | stop h => exact .stop (NextP.of_step (Ev.bind (f := fun _ _ => _) h (Ev.of fun _ => rfl)))
  | cons h _ ih =>
    refine YieldsP.of_next (yieldsP_finIn hc ih) fun o ho => NextP.of_step ?_
    exact Ev.bind (f := fun n => _) h ho

/-- `get_sequence` inside one value of the first command. -/
theorem yieldsS_finIn {coll : Coll} {ctx : Ctx} {cs : List Cmd} {g : Gen} {v : Str} {cur : SFrame}
    {w : W} {yss zss : List (List Str)} (hc : YieldsS E w coll cur yss)
    (hr : YieldsS E w coll (.fin ctx cs g) zss) :
    YieldsS E w coll (.finIn ctx cs g v cur) (yss.map (v :: ·) ++ zss) := by
  induction hc with
  | stop h =>
    refine YieldsS.of_next hr fun o ho => NextS.of_step ?_
    exact Ev.bind (f := fun n => _) h ho
  | cons h _ ih => exact .cons (NextS.of_step (Ev.bind (f := fun _ _ => _) h (Ev.of fun _ => rfl))) ih

/-- `get_sequence` is the product of the first command's texts and the rest. -/
theorem yieldsS_fin {coll : Coll} {ctx : Ctx} {cs : List Cmd} {g : Gen} {w : W} {xs : List Str}
    {yss : List (List Str)} (hg : Yields E w g xs) (hc : YieldsS E w coll (.start ctx cs) yss) :
    YieldsS E w coll (.fin ctx cs g) (xs.flatMap fun x => yss.map (x :: ·)) := by
  induction hg with
  | stop h => exact .stop (NextS.of_step (Ev.bind (f := fun _ _ => _) h (Ev.of fun _ => rfl)))
  | cons h _ ih =>
    refine YieldsS.of_next (yieldsS_finIn hc ih) fun o ho => NextS.of_step ?_
    exact Ev.bind (f := fun n => _) h ho

theorem yields_combSeq {sep : Str} {coll : Coll} {fr : SFrame} {w : W} {tss : List (List Str)}
    (h : YieldsS E w coll fr tss) : Yields E w (.combSeq sep coll fr) (tss.map (joined sep)) := by
  induction h with
  | stop h => exact .stop (NextG.of_step (Ev.bind (f := fun _ _ => _) h (Ev.of fun _ => rfl)))
  | cons h _ ih => exact .cons (NextG.of_step (Ev.bind (f := fun _ _ => _) h (Ev.of fun _ => rfl))) ih

end
end Verif
