import Verif.Proofs.Unending
import Verif.Spec.Starving
import Mathlib.Data.Finset.Card
import Mathlib.Data.Finset.Dedup
/-! Combinatorial variants with an option without end. -/

namespace Verif
open Spec Props
variable {W : Type} {E : Env W}

/-- The first `m` steps of `g`: at every fuel, no answer or a text of `all` that is not in `seen` and has not come before. -/
def Starves (E : Env W) (all : List Str) : Nat → List (List Str) → Gen → Prop
  | 0, _, _ => True
  | m + 1, seen, g => ∀ n w, (recs E n).G g w = .fuel ∨ ∃ v g' w', (recs E n).G g w = .ok (some (v, g')) w' ∧ v ∈ all ∧
      [v] ∉ seen ∧ Starves E all m ([v] :: seen) g'

/-- `fr` gives at least `k` texts of `all`, one at a time. -/
def Singles (E : Env W) (all : List Str) : Nat → PFrame → Prop
  | 0, _ => True
  | k + 1, fr => ∀ w, ∃ v fr' w', NextP E fr w (.ok (some ([v], fr')) w') ∧ v ∈ all ∧ Singles E all k fr'

theorem bind_no_answer {α β : Type} {x : M W α} {f : α → M W β} {w : W} (h : x w = .fuel) : (x >>= f) w = .fuel := by
  change M.bind x f w = _
  simp [M.bind, h]

theorem dedupe_single (v : Str) : dedupe (fun s : Str => s) [v] = [v] := dedupe_of_nodup (by simp)

theorem NextP.unique {g : PFrame} {w : W} {o o'} (h : NextP E g w o) (h' : NextP E g w o') : o = o' := by
  obtain ⟨N, h⟩ := h; obtain ⟨N', h'⟩ := h'
  rw [← h (max N N') (by omega), h' (max N N') (by omega)]

theorem NextP.at {g : PFrame} {w : W} {o} (h : NextP E g w o) (n : Nat) : (recs E n).P g w = .fuel ∨ (recs E n).P g w = o := by
  obtain ⟨N, h⟩ := h
  rcases (recs_le E (Nat.le_max_left n N)).P g w with h' | h'
  · exact .inl h'
  · exact .inr (h'.trans (h _ (Nat.le_max_right n N)))

theorem Singles.step {all : List Str} {fr : PFrame} (h : ∀ k, Singles E all k fr) (w : W) :
    ∃ v fr' w', NextP E fr w (.ok (some ([v], fr')) w') ∧ v ∈ all ∧ ∀ k, Singles E all k fr' := by
  obtain ⟨v, fr', w', h1, h2, -⟩ := h 1 w
  refine ⟨v, fr', w', h1, h2, fun k => ?_⟩
  obtain ⟨v', fr2, w2, h3, -, h4⟩ := h (k + 1) w
  have := h1.unique h3
  simp only [Res.ok.injEq, Option.some.injEq, Prod.mk.injEq] at this
  obtain ⟨⟨-, rfl⟩, -⟩ := this
  exact h4

theorem Singles.of_step {all : List Str} {k : Nat} {fr : PFrame}
    (h : ∀ w, ∃ fr' w', Singles E all k fr' ∧ ∀ o, NextP E fr' w' o → NextP E fr w o) : Singles E all k fr := by
  cases k with
  | zero => trivial
  | succ k =>
    intro w
    obtain ⟨fr', w', h1, h2⟩ := h w
    obtain ⟨v, fr2, w2, h3, h4⟩ := h1 w'
    exact ⟨v, fr2, w2, h2 _ h3, h4⟩

theorem Singles.fin {all : List Str} {ctx : Ctx} {ps : List (Str → Prop)} {g : Gen} (hp : ∀ p ∈ ps, ∀ s, p s → s ∈ all)
    (h : PN E ps g) : Singles E all ps.length (.fin ctx [] g) := by
  induction ps generalizing g with
  | nil => trivial
  | cons p ps ih =>
    intro w
    obtain ⟨v, g', w', h1, h2, h3⟩ := h w
    have h4 := ih (fun q hq => hp q (by simp [hq])) h3
    refine ⟨v, .finIn ctx [] g' v .done, w', NextP.of_step (Ev.bind (f := fun n => _) h1 ?_), hp p (by simp) v h2, ?_⟩
    · refine NextP.of_step (Ev.bind (f := fun n => _) (a := some ([], .done)) (w1 := w')
        (NextP.of_step (Ev.of fun _ => rfl)) (Ev.of fun _ => rfl))
    · refine Singles.of_step fun w => ⟨_, w, h4, fun o ho => NextP.of_step ?_⟩
      exact Ev.bind (f := fun n => _) (a := none) (w1 := w) (NextP.of_step (Ev.of fun _ => rfl)) ho

theorem Singles.start {all : List Str} {ctx : Ctx} {x : Cmd} {P : Nat → Str → Prop} {g : Gen} (hn : (ctx.effective x).nonfinite = false)
    (hg : mkGen E.unknown ctx x = .ok g) (h : Unending E P g) (hP : ∀ n s, P n s → s ∈ all) (k : Nat) :
    Singles E all k (.start ctx [x]) := by
  refine Singles.of_step fun w => ⟨.fin ctx [] g, w, ?_, fun o ho => NextP.of_step (ho.mp fun n hn' => ?_)⟩
  · have := Singles.fin (all := all) (ctx := ctx) (fun p hp s hs => ?_) (h k)
    · simpa using this
    · obtain ⟨n, -, rfl⟩ := List.mem_map.1 hp
      exact hP n s hs
  · simp only [stepP]
    rw [M.bind_of_ok (a := g) (w' := w) (by rw [hg]; rfl), if_neg (by rw [hn]; simp)]
    exact hn'

theorem Starves.endless {all : List Str} {ctx : Ctx} {sep : Str} {pend : List (Nat × List Cmd)} (m : Nat) {seen : List (List Str)}
    {fr : PFrame} (h : ∀ k, Singles E all k fr) : Starves E all m seen (.combVarIn ctx sep seen pend 1 fr) := by
  induction m generalizing seen fr with
  | zero => trivial
  | succ m ih =>
    intro n
    induction n generalizing fr with
    | zero => exact fun w => .inl rfl
    | succ n ihn =>
      intro w
      obtain ⟨v, fr', w', h1, h2, h3⟩ := Singles.step h w
      have hstep : (recs E (n + 1)).G (.combVarIn ctx sep seen pend 1 fr) w = stepG E (recs E n) (.combVarIn ctx sep seen pend 1 fr) w := rfl
      rw [hstep]
      simp only [stepG]
      rcases h1.at n with h4 | h4
      · exact .inl (bind_no_answer h4)
      · rw [M.bind_of_ok h4]
        by_cases hs : seen.contains [v]
        · simp only [dedupe_single, hs]
          simpa using ihn h3 w'
        · refine .inr ⟨v, _, w', ?_, h2, by simpa using hs, ih (seen := [v] :: seen) h3⟩
          simp only [dedupe_single, hs]
          rfl

theorem Starves.before {all : List Str} {ctx : Ctx} {sep : Str} {pend : List (Nat × List Cmd)} (m : Nat) {seen : List (List Str)}
    {fr : PFrame} {tss : List (List Str)} (h : YP E tss fr) (ht : ∀ t ∈ tss, ∃ v ∈ all, t = [v])
    (hr : ∀ m seen, Starves E all m seen (.combVar ctx sep seen pend)) :
    Starves E all m seen (.combVarIn ctx sep seen pend 1 fr) := by
  induction m generalizing seen fr tss with
  | zero => trivial
  | succ m ih =>
    intro n
    induction n generalizing fr tss with
    | zero => exact fun w => .inl rfl
    | succ n ihn =>
      intro w
      have hstep : (recs E (n + 1)).G (.combVarIn ctx sep seen pend 1 fr) w = stepG E (recs E n) (.combVarIn ctx sep seen pend 1 fr) w := rfl
      rw [hstep]
      simp only [stepG]
      cases tss with
      | nil =>
        obtain ⟨w', h1⟩ := h w
        rcases NextP.at h1 n with h4 | h4
        · exact .inl (bind_no_answer h4)
        · rw [M.bind_of_ok h4]
          exact hr (m + 1) seen n w'
      | cons t tss =>
        obtain ⟨fr', w', h1, h3⟩ := h w
        obtain ⟨v, hv, rfl⟩ := ht t (by simp)
        replace ht : ∀ t ∈ tss, ∃ v ∈ all, t = [v] := fun t h => ht t (by simp [h])
        rcases NextP.at h1 n with h4 | h4
        · exact .inl (bind_no_answer h4)
        · rw [M.bind_of_ok h4]
          by_cases hs : seen.contains [v]
          · simp only [dedupe_single, hs]
            simpa using ihn h3 ht w'
          · refine .inr ⟨v, _, w', ?_, hv, by simpa using hs, ih (seen := [v] :: seen) h3 ht⟩
            simp only [dedupe_single, hs]
            rfl

theorem Starves.of_step {all : List Str} {m : Nat} {seen : List (List Str)} {g g' : Gen}
    (hs : ∀ n w, (recs E (n + 1)).G g w = (recs E n).G g' w) (h : Starves E all m seen g') : Starves E all m seen g := by
  cases m with
  | zero => trivial
  | succ m =>
    intro n w
    cases n with
    | zero => exact .inl rfl
    | succ n =>
      rw [hs]
      exact h n w

theorem Starves.combVar {all : List Str} {ctx : Ctx} {sep : Str} {f : Cmd → List Str} {x : Cmd} {P : Nat → Str → Prop} {g : Gen}
    (hn : (ctx.effective x).nonfinite = false) (hg : mkGen E.unknown ctx x = .ok g) (h : Unending E P g)
    (hP : ∀ n s, P n s → s ∈ all) (before after : List Cmd)
    (hb : ∀ c ∈ before, (ctx.effective c).nonfinite = false ∧ ∃ g, mkGen E.unknown ctx c = .ok g ∧ Yx E (f c) g)
    (hf : ∀ c ∈ before, ∀ s ∈ f c, s ∈ all) (m : Nat) (seen : List (List Str)) :
    Starves E all m seen (.combVar ctx sep seen ((before ++ x :: after).map fun c => (1, [c]))) := by
  induction before generalizing m seen with
  | nil =>
    refine Starves.of_step (g' := .combVarIn ctx sep seen (after.map fun c => (1, [c])) 1 (.start ctx [x])) (fun n w => rfl) ?_
    exact Starves.endless m (Singles.start hn hg h hP)
  | cons c before ih =>
    refine Starves.of_step (g' := .combVarIn ctx sep seen ((before ++ x :: after).map fun c => (1, [c])) 1 (.start ctx [c]))
      (fun n w => rfl) ?_
    refine Starves.before m (YP.start (f := f) (cs := [c]) fun c' hc => ?_) (fun t ht => ?_) fun m seen =>
      ih (fun c hc => hb c (by simp [hc])) (fun c hc => hf c (by simp [hc])) m seen
    · simp only [List.mem_singleton] at hc
      subst hc
      exact hb c' (by simp)
    · simp [product] at ht
      obtain ⟨v, hv, rfl⟩ := ht
      exact ⟨v, hf c (by simp) v hv, rfl⟩

/-! ### Generators that stop answering -/

/-- At every fuel: no answer, or a text satisfying `Q`; at most `m` texts. -/
def Mute (E : Env W) (Q : Str → Prop) : Nat → Gen → Prop
  | 0, g => ∀ n w, (recs E n).G g w = .fuel
  | m + 1, g => ∀ n w, (recs E n).G g w = .fuel ∨ ∃ v g' w', (recs E n).G g w = .ok (some (v, g')) w' ∧ Q v ∧ Mute E Q m g'

/-- The same for `get_sequence`. -/
def MuteS (E : Env W) (Q : List Str → Prop) : Nat → SFrame → Prop
  | 0, fr => ∀ coll n w, (recs E n).S coll fr w = .fuel
  | m + 1, fr => ∀ coll n w, (recs E n).S coll fr w = .fuel ∨
      ∃ coll' v fr' w', (recs E n).S coll fr w = .ok (coll', some (v, fr')) w' ∧ Q v ∧ MuteS E Q m fr'

theorem Mute.of_step {Q : Str → Prop} {m : Nat} {g : Gen}
    (h : ∀ n w, (recs E (n + 1)).G g w = .fuel ∨ ∃ g' w', (recs E (n + 1)).G g w = (recs E n).G g' w' ∧ Mute E Q m g') : Mute E Q m g := by
  cases m with
  | zero =>
    intro n w
    cases n with
    | zero => rfl
    | succ n =>
      rcases h n w with h | ⟨g', w', h, h'⟩
      · exact h
      · rw [h]; exact h' n w'
  | succ m =>
    intro n w
    cases n with
    | zero => exact .inl rfl
    | succ n =>
      rcases h n w with h | ⟨g', w', h, h'⟩
      · exact .inl h
      · rw [h]; exact h' n w'

theorem MuteS.of_step {Q : List Str → Prop} {m : Nat} {fr : SFrame}
    (h : ∀ coll n w, (recs E (n + 1)).S coll fr w = .fuel ∨
      ∃ coll' fr' w', (recs E (n + 1)).S coll fr w = (recs E n).S coll' fr' w' ∧ MuteS E Q m fr') : MuteS E Q m fr := by
  cases m with
  | zero =>
    intro coll n w
    cases n with
    | zero => rfl
    | succ n =>
      rcases h coll n w with h | ⟨coll', g', w', h, h'⟩
      · exact h
      · rw [h]; exact h' coll' n w'
  | succ m =>
    intro coll n w
    cases n with
    | zero => exact .inl rfl
    | succ n =>
      rcases h coll n w with h | ⟨coll', g', w', h, h'⟩
      · exact .inl h
      · rw [h]; exact h' coll' n w'

theorem Mute.of_starves {all : List Str} (K : Nat) {seen : List (List Str)} {g : Gen} (h : ∀ m, Starves E all m seen g)
    (hK : (all.toFinset.filter fun v => [v] ∉ seen).card ≤ K) : Mute E (· ∈ all) K g := by
  induction K generalizing seen g with
  | zero =>
    intro n w
    rcases h 1 n w with h1 | ⟨v, g', w', h1, h2, h3, -⟩
    · exact h1
    · have : v ∈ all.toFinset.filter fun v => [v] ∉ seen := by simp [h2, h3]
      rw [Finset.card_eq_zero.1 (Nat.le_zero.1 hK)] at this
      simp at this
  | succ K ih =>
    intro n w
    rcases h 1 n w with h1 | ⟨v, g', w', h1, h2, h3, -⟩
    · exact .inl h1
    · refine .inr ⟨v, g', w', h1, h2, ih (seen := [v] :: seen) (fun m => ?_) ?_⟩
      · rcases h (m + 1) n w with h4 | ⟨v2, g2, w2, h4, -, -, h5⟩
        · rw [h4] at h1; cases h1
        · rw [h1] at h4
          cases h4
          exact h5
      · refine Nat.lt_succ_iff.1 (Nat.lt_of_lt_of_le (Finset.card_lt_card ?_) hK)
        refine Finset.ssubset_iff_subset_ne.2 ⟨fun u hu => ?_, fun he => ?_⟩
        · simp only [Finset.mem_filter, List.mem_cons, not_or] at hu ⊢
          exact ⟨hu.1, hu.2.2⟩
        · have : v ∈ all.toFinset.filter fun v => [v] ∉ seen := by simp [h2, h3]
          rw [← he] at this
          simp at this

theorem NextS.at {coll : Coll} {g : SFrame} {w : W} {o} (h : NextS E coll g w o) (n : Nat) :
    (recs E n).S coll g w = .fuel ∨ (recs E n).S coll g w = o := by
  obtain ⟨N, h⟩ := h
  rcases (recs_le E (Nat.le_max_left n N)).S coll g w with h' | h'
  · exact .inl h'
  · exact .inr (h'.trans (h _ (Nat.le_max_right n N)))

theorem NextG.at {g : Gen} {w : W} {o} (h : NextG E g w o) (n : Nat) : (recs E n).G g w = .fuel ∨ (recs E n).G g w = o := by
  obtain ⟨N, h⟩ := h
  rcases (recs_le E (Nat.le_max_left n N)).G g w with h' | h'
  · exact .inl h'
  · exact .inr (h'.trans (h _ (Nat.le_max_right n N)))

theorem MuteS.finIn {Q : List Str → Prop} {ctx : Ctx} {cs : List Cmd} {g : Gen} {v : Str} {k : Nat}
    {ps : List (List Str → Prop)} {cur : SFrame} (hv : ∀ p ∈ ps, ∀ t, p t → Q (v :: t)) (hc : PYS E (fun _ => True) ps cur)
    (hr : MuteS E Q k (.fin ctx cs g)) : MuteS E Q (ps.length + k) (.finIn ctx cs g v cur) := by
  induction ps generalizing cur with
  | nil =>
    simp only [List.length_nil, Nat.zero_add]
    refine MuteS.of_step fun coll n w => ?_
    have hstep : (recs E (n + 1)).S coll (.finIn ctx cs g v cur) w = stepS E (recs E n) coll (.finIn ctx cs g v cur) w := rfl
    rw [hstep]
    simp only [stepS]
    obtain ⟨coll', w', h1, -⟩ := hc coll trivial w
    rcases NextS.at h1 n with h | h
    · exact .inl (bind_no_answer h)
    · rw [M.bind_of_ok h]
      exact .inr ⟨coll', _, w', rfl, hr⟩
  | cons q ps ih =>
    rw [List.length_cons, Nat.add_right_comm]
    intro coll n w
    cases n with
    | zero => exact .inl rfl
    | succ n =>
      have hstep : (recs E (n + 1)).S coll (.finIn ctx cs g v cur) w = stepS E (recs E n) coll (.finIn ctx cs g v cur) w := rfl
      rw [hstep]
      simp only [stepS]
      obtain ⟨coll', t, fr', w', h1, -, h3, h4⟩ := hc coll trivial w
      rcases NextS.at h1 n with h | h
      · exact .inl (bind_no_answer h)
      · rw [M.bind_of_ok h]
        exact .inr ⟨coll', v :: t, _, w', rfl, hv q (by simp) t h3, ih (fun p hp => hv p (by simp [hp])) h4⟩

theorem MuteS.fin {Q : List Str → Prop} {R : Str → Prop} {ctx : Ctx} {cs : List Cmd} {k : Nat} {g : Gen} {ps : List (List Str → Prop)}
    (hv : ∀ v, R v → ∀ p ∈ ps, ∀ t, p t → Q (v :: t)) (hg : Mute E R k g) (hc : PYS E (fun _ => True) ps (.start ctx cs)) :
    MuteS E Q (k * ps.length) (.fin ctx cs g) := by
  induction k generalizing g with
  | zero =>
    rw [Nat.zero_mul]
    intro coll n w
    cases n with
    | zero => rfl
    | succ n =>
      have hstep : (recs E (n + 1)).S coll (.fin ctx cs g) w = stepS E (recs E n) coll (.fin ctx cs g) w := rfl
      rw [hstep]
      simp only [stepS]
      exact bind_no_answer (hg n w)
  | succ k ih =>
    refine MuteS.of_step fun coll n w => ?_
    have hstep : (recs E (n + 1)).S coll (.fin ctx cs g) w = stepS E (recs E n) coll (.fin ctx cs g) w := rfl
    rw [hstep]
    simp only [stepS]
    rcases hg n w with h | ⟨v, g', w', h, h2, h3⟩
    · exact .inl (bind_no_answer h)
    · rw [M.bind_of_ok h]
      refine .inr ⟨coll, _, w', rfl, ?_⟩
      rw [Nat.succ_mul, Nat.add_comm]
      exact MuteS.finIn (hv v h2) hc (ih h3)

theorem MuteS.first {Q R : List Str → Prop} {ctx : Ctx} {cs : List Cmd} {g : Gen} {v : Str} {k : Nat} {cur : SFrame}
    (hv : ∀ t, R t → Q (v :: t)) (hc : MuteS E R k cur) : MuteS E Q k (.finIn ctx cs g v cur) := by
  induction k generalizing cur with
  | zero =>
    intro coll n w
    cases n with
    | zero => rfl
    | succ n =>
      have hstep : (recs E (n + 1)).S coll (.finIn ctx cs g v cur) w = stepS E (recs E n) coll (.finIn ctx cs g v cur) w := rfl
      rw [hstep]
      simp only [stepS]
      exact bind_no_answer (hc coll n w)
  | succ k ih =>
    intro coll n w
    cases n with
    | zero => exact .inl rfl
    | succ n =>
      have hstep : (recs E (n + 1)).S coll (.finIn ctx cs g v cur) w = stepS E (recs E n) coll (.finIn ctx cs g v cur) w := rfl
      rw [hstep]
      simp only [stepS]
      rcases hc coll n w with h | ⟨coll', t, fr', w', h, h2, h3⟩
      · exact .inl (bind_no_answer h)
      · rw [M.bind_of_ok h]
        exact .inr ⟨coll', v :: t, _, w', rfl, hv t h2, ih h3⟩

theorem mute_start_fin {Q : List Str → Prop} {k : Nat} {ctx : Ctx} {c : Cmd} {cs : List Cmd} {g : Gen}
    (hn : (ctx.effective c).nonfinite = false) (hg : mkGen E.unknown ctx c = .ok g) (h : MuteS E Q k (.fin ctx cs g)) :
    MuteS E Q k (.start ctx (c :: cs)) := by
  refine MuteS.of_step fun coll n w => .inr ⟨coll, _, w, ?_, h⟩
  have hstep : (recs E (n + 1)).S coll (.start ctx (c :: cs)) w = stepS E (recs E n) coll (.start ctx (c :: cs)) w := rfl
  rw [hstep]
  simp only [stepS]
  rw [if_neg (by rw [hn]; simp), M.bind_of_ok (a := g) (w' := w) (by rw [hg]; rfl)]

theorem MuteS.before {Q : List Str → Prop} {k : Nat} {ctx : Ctx} {pre cs : List Cmd} {as : List Str}
    (hp : List.Forall₂ (fun c a => (ctx.effective c).nonfinite = false ∧ ∃ g xs, mkGen E.unknown ctx c = .ok g ∧ Yx E (a :: xs) g) pre as)
    (h : MuteS E Q k (.start ctx cs)) : MuteS E (prefP as Q) k (.start ctx (pre ++ cs)) := by
  induction hp with
  | nil =>
    have : prefP [] Q = Q := by funext t; simp [prefP]
    rw [this]
    exact h
  | @cons c a pre as h1 _ ih =>
    obtain ⟨hn, g, xs, hg, hy⟩ := h1
    refine mute_start_fin hn hg (MuteS.of_step fun coll n w => ?_)
    have hstep : (recs E (n + 1)).S coll (.fin ctx (pre ++ cs) g) w = stepS E (recs E n) coll (.fin ctx (pre ++ cs) g) w := rfl
    rw [List.append_eq, hstep]
    simp only [stepS]
    obtain ⟨v, g', w', h1, h2, h3⟩ := hy w
    replace h2 : v = a := h2
    subst h2
    rcases NextG.at h1 n with h | h
    · exact .inl (bind_no_answer h)
    · rw [M.bind_of_ok h]
      refine .inr ⟨coll, _, w', rfl, MuteS.first ?_ ih⟩
      rintro t ⟨t', rfl, ht⟩
      exact ⟨t', rfl, ht⟩

theorem Mute.combSeq {Q : List Str → Prop} {R : Str → Prop} {k : Nat} {sep : Str} {coll : Coll} {fr : SFrame}
    (hR : ∀ t, Q t → R (joined sep t)) (h : MuteS E Q k fr) : Mute E R k (.combSeq sep coll fr) := by
  induction k generalizing coll fr with
  | zero =>
    intro n w
    cases n with
    | zero => rfl
    | succ n =>
      have hstep : (recs E (n + 1)).G (.combSeq sep coll fr) w = stepG E (recs E n) (.combSeq sep coll fr) w := rfl
      rw [hstep]
      simp only [stepG]
      exact bind_no_answer (h coll n w)
  | succ k ih =>
    intro n w
    cases n with
    | zero => exact .inl rfl
    | succ n =>
      have hstep : (recs E (n + 1)).G (.combSeq sep coll fr) w = stepG E (recs E n) (.combSeq sep coll fr) w := rfl
      rw [hstep]
      simp only [stepG]
      rcases h coll n w with h | ⟨coll', t, fr', w', h, h2, h3⟩
      · exact .inl (bind_no_answer h)
      · rw [M.bind_of_ok h]
        exact .inr ⟨_, _, w', rfl, hR t h2, ih h3⟩

/-- Making the collection is not answered or succeeds. -/
theorem mkColl_mute {ctx : Ctx} {cs : List Cmd}
    (h : ∀ c ∈ cs, ∃ g, mkGen E.unknown ctx c = .ok g ∧ ∀ n w, (recs E n).G g w = .fuel ∨ ∃ v g' w', (recs E n).G g w = .ok (some (v, g')) w')
    (n : Nat) (w : W) :
    (recs E n).mkColl E ctx cs w = .fuel ∨ ∃ coll w', (recs E n).mkColl E ctx cs w = .ok coll w' := by
  have key : ∃ gs, mkGens E.unknown ctx cs = .ok gs ∧ ∀ w, (recs E n).firstValues (cs.zip gs) w = .fuel ∨ ∃ coll w',
      (recs E n).firstValues (cs.zip gs) w = .ok coll w' := by
    clear w
    induction cs with
    | nil => exact ⟨[], rfl, fun w => .inr ⟨[], w, rfl⟩⟩
    | cons c cs ih =>
      obtain ⟨gs, hgs, ih⟩ := ih fun c hc => h c (by simp [hc])
      obtain ⟨g, hg, h1⟩ := h c (by simp)
      refine ⟨g :: gs, by simp [mkGens, hg, hgs], fun w => ?_⟩
      simp only [List.zip_cons_cons, Recs.firstValues]
      rcases h1 n w with h1 | ⟨v, g', w1, h3⟩
      · exact .inl (bind_no_answer (by unfold Recs.next!; exact bind_no_answer h1))
      · have h4 : (recs E n).next! g w = .ok (v, g') w1 := by
          unfold Recs.next!
          rw [M.bind_of_ok h3]
          rfl
        rw [M.bind_of_ok h4]
        rcases ih w1 with h5 | ⟨coll, w2, h5⟩
        · exact .inl (bind_no_answer h5)
        · rw [M.bind_of_ok h5]
          exact .inr ⟨_, w2, rfl⟩
  obtain ⟨gs, hgs, key⟩ := key
  unfold Recs.mkColl
  rw [M.bind_of_ok (a := gs) (w' := w) (by rw [hgs]; rfl)]
  exact key w

theorem Mute.start {Q : Str → Prop} {k : Nat} {ctx : Ctx} {c : Cmd} (hl : ∀ s m, c ≠ .lit s m)
    (hs : ∀ n w, startG E (recs E n) ctx c w = .fuel ∨ ∃ g w', startG E (recs E n) ctx c w = .ok g w' ∧ Mute E Q k g) :
    Mute E Q k (.start ctx c) := by
  refine Mute.of_step fun n w => ?_
  have hstep : (recs E (n + 1)).G (.start ctx c) w = (startG E (recs E n) ctx c >>= fun g => (recs E n).G g) w := by
    cases c with
    | lit s m => exact absurd rfl (hl s m)
    | _ => rfl
  rw [hstep]
  rcases hs n w with h | ⟨g, w', h, h'⟩
  · exact .inl (bind_no_answer h)
  · rw [M.bind_of_ok h]
    exact .inr ⟨g, w', rfl, h'⟩

theorem mkGen_mute_of_start {vars : List (Str × Cmd)} {being : List Str} {c : Cmd} {k : Nat}
    {Q : Str → Prop} (hc : ∀ n d, c ≠ .access n d) (ha : ∀ n v i o, c ≠ .assign n v i o)
    (hm : Finite c.method) (h : Mute E Q k (.start ⟨.comb, vars, being⟩ c)) :
    ∃ g, mkGen E.unknown ⟨.comb, vars, being⟩ c = .ok g ∧ Mute E Q k g := by
  refine ⟨_, ?_, h⟩
  have hn : effMethod .comb c.method = .comb := effMethod_finite hm
  rw [mkGen_outcome (.target hc)]
  cases c with
  | assign n v i o => exact absurd rfl (ha n v i o)
  | access n d => exact absurd rfl (hc n d)
  | wrap a b m => simp only [outcomeGen, hn]; rw [if_neg (by simp)]
  | _ => simp only [outcomeGen, hn]

theorem starving_seq {vars new : List (Str × Cmd)} {being : List Str} {toks before after : List Cmd} {x : Cmd} {sep : Str}
    {m : Option Method} {outss rests : List (List Str)} {as : List Str} {N : Nat} {Q : Str → Prop}
    (hA : ListsAssigned E vars being toks (before ++ x :: after) new) (hb : ListsTokens E (new ++ vars) being before outss)
    (has : List.Forall₂ (fun outs a => outs.head? = some a) outss as) (hx : Finite x.method)
    (h : ∃ g, mkGen E.unknown ⟨.comb, new ++ vars, being⟩ x = .ok g ∧ Mute E Q N g)
    (hr : ListsTokens E (new ++ vars) being after rests) :
    Mute E (fun s => ∃ y z, Q y ∧ z ∈ product rests ∧ s = joined sep ([] :: as ++ y :: z ++ [[]])) (N * (product rests).length)
      (.start ⟨.comb, vars, being⟩ (.seq toks sep m)) := by
  obtain ⟨gx, hgx, hPx⟩ := h
  have hb' := listsTokens_Yx hb
  have hr' := listsTokens_Yx hr
  have hbefore : List.Forall₂ (fun c a => ((Ctx.mk .comb (new ++ vars) being).effective c).nonfinite = false ∧
      ∃ g xs, mkGen E.unknown ⟨.comb, new ++ vars, being⟩ c = .ok g ∧ Yx E (a :: xs) g) before as := by
    clear hA hb
    induction hb' generalizing as with
    | nil => cases has; exact .nil
    | cons h1 _ ih =>
      cases has with
      | cons h2 h3 =>
        obtain ⟨hf, -, g, hg, hy⟩ := h1
        rename_i outs _ _ _ _ _
        cases outs with
        | nil => cases h2
        | cons o outs =>
          cases h2
          exact .cons ⟨effective_finite hf rfl, g, outs, hg, hy⟩ (ih h3)
  refine Mute.start (by simp) fun n w => ?_
  obtain ⟨w1, N1, h1⟩ := listsAssigned_Yx hA w
  have h1 : (recs E n).assigns E ⟨.comb, vars, being⟩ toks w = .fuel ∨ (recs E n).assigns E ⟨.comb, vars, being⟩ toks w =
      .ok (before ++ x :: after, new) w1 := by
    rcases assigns_mono (recs_le E (Nat.le_max_left n N1)) E ⟨.comb, vars, being⟩ toks w with h' | h'
    · exact .inl h'
    · exact .inr (h'.trans (h1 _ (Nat.le_max_right n N1)))
  have h2 := mkColl_mute (E := E) (ctx := ⟨.comb, new ++ vars, being⟩)
    (cs := (before ++ x :: after).filter (fun c => c.method ≠ some .comb)) (by
      intro c hc
      obtain ⟨hc, hm'⟩ := List.mem_filter.1 hc
      have key : ∀ {cs : List Cmd} {os : List (List Str)}, List.Forall₂ (fun (c : Cmd) outs => Spec.Finite c.method ∧ (c.method = none → outs ≠ []) ∧
          ∃ g, mkGen E.unknown ⟨.comb, new ++ vars, being⟩ c = .ok g ∧ Yx E outs g) cs os → c ∈ cs →
          ∃ g, mkGen E.unknown ⟨.comb, new ++ vars, being⟩ c = .ok g ∧
            ∀ n w, (recs E n).G g w = .fuel ∨ ∃ v g' w', (recs E n).G g w = .ok (some (v, g')) w' := by
        intro cs os hcs hmem
        obtain ⟨outs, hf, hne, g, hg, hy⟩ := forall2_left hcs hmem
        have hnone : c.method = none := by
          rcases hf with hf | hf
          · exact hf
          · simp [hf] at hm'
        cases outs with
        | nil => exact absurd rfl (hne hnone)
        | cons o outs =>
          refine ⟨g, hg, fun n w => ?_⟩
          obtain ⟨v, g', w', h, -⟩ := hy w
          rcases NextG.at h n with h | h
          · exact .inl h
          · exact .inr ⟨v, g', w', h⟩
      rcases List.mem_append.1 hc with hc | hc
      · exact key hb' hc
      · rcases List.mem_cons.1 hc with rfl | hc
        · refine ⟨gx, hgx, fun n w => ?_⟩
          cases N with
          | zero => exact .inl (hPx n w)
          | succ N =>
            rcases hPx n w with h | ⟨v, g', w', h, -⟩
            · exact .inl h
            · exact .inr ⟨v, g', w', h⟩
        · exact key hr' hc) n
  rcases h1 with h1 | h1
  · exact .inl (bind_no_answer h1)
  rcases h2 w1 with h2 | ⟨coll, w2, h2⟩
  · refine .inl ?_
    change ((recs E n).assigns E ⟨.comb, vars, being⟩ toks >>= _) w = _
    rw [M.bind_of_ok h1]
    exact bind_no_answer h2
  refine .inr ⟨.combSeq sep coll (.start ⟨.comb, new ++ vars, being⟩ (sentinel :: (before ++ x :: after) ++ [sentinel])), w2, ?_, ?_⟩
  · change ((recs E n).assigns E ⟨.comb, vars, being⟩ toks >>= _) w = _
    rw [M.bind_of_ok h1]
    change ((recs E n).mkColl E ⟨.comb, new ++ vars, being⟩ _ >>= _) w1 = _
    rw [M.bind_of_ok h2]
    rfl
  · have hpost : PYS E (fun _ => True) (prodP ((rests ++ [[[]]]).map fun (xs : List Str) => xs.map fun o s => s = o))
        (.start ⟨.comb, new ++ vars, being⟩ (after ++ [sentinel])) := by
      refine PYS.start ?_
      rw [List.map_append]
      refine forall2_snoc ?_ sentinel_ok
      rw [List.forall₂_map_right_iff]
      exact hr'.imp fun c outs ⟨hf, _, g, hg, hy⟩ => Or.inr ⟨effective_finite hf rfl, g, hg, hy⟩
    have hprod : product (rests ++ [[[]]]) = (product rests).map fun t => t ++ [([] : Str)] := by
      clear * -
      induction rests with
      | nil => rfl
      | cons xs xss ih => simp [product, ih, List.map_flatMap, List.map_map, Function.comp_def]
    rw [prodP_exact, hprod] at hpost
    have h3 := mute_start_fin (cs := after ++ [sentinel]) (effective_finite (ctx := ⟨.comb, new ++ vars, being⟩) hx rfl) hgx
      (MuteS.fin (R := Q) (Q := fun t => ∃ y z, Q y ∧ z ∈ product rests ∧ t = y :: z ++ [[]]) (fun v hv p hp t ht => by
        simp only [List.map_map, List.mem_map, Function.comp] at hp
        obtain ⟨z, hz, rfl⟩ := hp
        replace ht : t = z ++ [[]] := ht
        exact ⟨v, z, hv, hz, by simp [ht]⟩) hPx hpost)
    simp only [List.length_map] at h3
    have h4 := MuteS.before (pre := sentinel :: before) (as := [] :: as) (.cons ⟨rfl, _, [], rfl, fun w =>
      ⟨[], .done, w, NextG.of_step (Ev.of fun _ => rfl), rfl, Yx.done⟩⟩ hbefore) h3
    simp only [List.cons_append, List.append_assoc] at h4 ⊢
    refine Mute.combSeq ?_ h4
    rintro t ⟨t', rfl, y, z, hy, hz, rfl⟩
    exact ⟨y, z, hy, hz, by simp⟩

theorem boundCombos_one (cs : List Cmd) : boundCombos cs 1 1 = cs.map fun c => (1, [c]) := by
  simp [boundCombos, boundRange, getCombos, List.map_flatMap]
  induction cs with
  | nil => rfl
  | cons c cs ih => simp_all

theorem Mute.squashIf {Q : Str → Prop} {k : Nat} {g : Gen} (h : Mute E Q k g) :
    Mute E (fun s => ∃ x, Q x ∧ s = Spec.squashIf E.ignoreWs x) k (if E.ignoreWs then .squash g else g) := by
  cases hw : E.ignoreWs
  · simp only [Spec.squashIf]
    induction k generalizing g with
    | zero => exact h
    | succ k ih =>
      intro n w
      rcases h n w with h | ⟨v, g', w', h, h2, h3⟩
      · exact .inl h
      · exact .inr ⟨v, g', w', h, ⟨v, h2, by simp⟩, ih h3⟩
  · simp only [if_true]
    induction k generalizing g with
    | zero =>
      intro n w
      cases n with
      | zero => rfl
      | succ n => exact bind_no_answer (h n w)
    | succ k ih =>
      intro n w
      cases n with
      | zero => exact .inl rfl
      | succ n =>
        rcases h n w with h | ⟨v, g', w', h, h2, h3⟩
        · exact .inl (bind_no_answer h)
        · refine .inr ⟨_, _, w', ?_, ⟨v, h2, rfl⟩, ih h3⟩
          change ((recs E n).G g >>= _) w = _
          rw [M.bind_of_ok h]
          rfl

/-- A generator that passes on the texts of another one. -/
theorem Mute.through {Q R : Str → Prop} {k : Nat} {F : Gen → Gen} {φ : Str → Str} (hR : ∀ v, Q v → R (φ v))
    (hf : ∀ n g w, (recs E n).G g w = .fuel → (recs E (n + 1)).G (F g) w = .fuel)
    (hs : ∀ n g w v g' w', (recs E n).G g w = .ok (some (v, g')) w' → (recs E (n + 1)).G (F g) w = .ok (some (φ v, F g')) w')
    {g : Gen} (h : Mute E Q k g) : Mute E R k (F g) := by
  induction k generalizing g with
  | zero =>
    intro n w
    cases n with
    | zero => rfl
    | succ n => exact hf n g w (h n w)
  | succ k ih =>
    intro n w
    cases n with
    | zero => exact .inl rfl
    | succ n =>
      rcases h n w with h | ⟨v, g', w', h, h2, h3⟩
      · exact .inl (hf n g w h)
      · exact .inr ⟨_, _, w', hs n g w v g' w' h, hR v h2, ih h3⟩

/-- A generator that passes on the texts of a finite one and then goes on with one that stops answering. -/
theorem Mute.append_of {R : Str → Prop} {k : Nat} {F : Gen → Gen} {φ : Str → Str}
    (hf : ∀ n g w, (recs E n).G g w = .fuel → (recs E (n + 1)).G (F g) w = .fuel)
    (hs : ∀ n g w v g' w', (recs E n).G g w = .ok (some (v, g')) w' → (recs E (n + 1)).G (F g) w = .ok (some (φ v, F g')) w')
    (hn : ∀ n g w w', (recs E n).G g w = .ok none w' →
      ∃ g' w2, (recs E (n + 1)).G (F g) w = (recs E n).G g' w2 ∧ Mute E R k g')
    {ts : List Str} (hts : ∀ t ∈ ts, R (φ t)) {g : Gen} (h : Yx E ts g) : Mute E R (ts.length + k) (F g) := by
  induction ts generalizing g with
  | nil =>
    rw [List.length_nil, Nat.zero_add]
    refine Mute.of_step fun n w => ?_
    obtain ⟨w', h1⟩ := h w
    rcases NextG.at h1 n with h1 | h1
    · exact .inl (hf n g w h1)
    · exact .inr (hn n g w w' h1)
  | cons t ts ih =>
    rw [List.length_cons, Nat.add_right_comm]
    intro n w
    cases n with
    | zero => exact .inl rfl
    | succ n =>
      obtain ⟨v, g', w', h1, h2, h3⟩ := h w
      replace h2 : v = t := h2
      subst h2
      rcases NextG.at h1 n with h1 | h1
      · exact .inl (hf n g w h1)
      · exact .inr ⟨_, _, w', hs n g w v g' w' h1, hts v (by simp), ih (fun t ht => hts t (by simp [ht])) h3⟩

theorem sampleFirst_mute {ctx : Ctx} {p : Prompt} {x : Str} {xs : List Str}
    (h : ∃ g, sampleGen E ctx p = .ok g ∧ Yx E (x :: xs) g) (n : Nat) (w : W) :
    (recs E n).sampleFirst E ctx p w = .fuel ∨ ∃ w', (recs E n).sampleFirst E ctx p w = .ok x w' := by
  obtain ⟨g, hg, hs⟩ := h
  obtain ⟨v, g', w1, h1, h2, -⟩ := hs w
  replace h2 : v = x := h2
  subst h2
  unfold Recs.sampleFirst Recs.next!
  rw [M.bind_of_ok (a := g) (w' := w) (by rw [hg]; rfl)]
  rcases NextG.at h1 n with h1 | h1
  · exact .inl (bind_no_answer (bind_no_answer h1))
  · refine .inr ⟨w1, ?_⟩
    rw [M.bind_of_ok (a := (v, g')) (w' := w1) (by rw [M.bind_of_ok h1]; rfl)]
    rfl

theorem combWild_fuel {ctx : Ctx} {vals : List Str} (n : Nat) (g : Gen) (w : W) (h : (recs E n).G g w = .fuel) :
    (recs E (n + 1)).G (.combWild ctx vals g) w = .fuel := bind_no_answer h

theorem combWild_some {ctx : Ctx} {vals : List Str} (n : Nat) (g : Gen) (w : W) (v : Str) (g' : Gen) (w' : W)
    (h : (recs E n).G g w = .ok (some (v, g')) w') :
    (recs E (n + 1)).G (.combWild ctx vals g) w = .ok (some (v, .combWild ctx vals g')) w' := by
  change ((recs E n).G g >>= _) w = _
  rw [M.bind_of_ok h]
  rfl

theorem combWild_none {ctx : Ctx} {x : Str} {vals : List Str} {g0 : Gen} (hx : sampleGen E ctx (.inl x) = .ok g0) (n : Nat) (g : Gen)
    (w w' : W) (h : (recs E n).G g w = .ok none w') :
    (recs E (n + 1)).G (.combWild ctx (x :: vals) g) w = (recs E n).G (.combWild ctx vals g0) w' := by
  change ((recs E n).G g >>= _) w = _
  rw [M.bind_of_ok h]
  dsimp only
  rw [M.bind_of_ok (a := g0) (w' := w') (by rw [hx]; rfl)]

theorem Mute.combWild {R : Str → Prop} {ctx : Ctx} {after : List Str} {x : Str} {f : Str → List Str} {Q : Str → Prop} {k : Nat}
    (hx : ∃ g, sampleGen E ctx (.inl x) = .ok g ∧ Mute E R k g) (hR : ∀ s, R s → Q s) {before : List Str}
    (h : ∀ y ∈ before, ∃ g, sampleGen E ctx (.inl y) = .ok g ∧ Yx E (f y) g) (hb : ∀ y ∈ before, ∀ s ∈ f y, Q s) :
    ∀ {cur : Gen} {ts : List Str}, (∀ t ∈ ts, Q t) → Yx E ts cur →
      Mute E Q ((ts ++ before.flatMap f).length + k) (.combWild ctx (before ++ x :: after) cur) := by
  induction before with
  | nil =>
    intro cur ts hts hc
    obtain ⟨g0, hg0, hy⟩ := hx
    rw [List.flatMap_nil, List.append_nil]
    refine Mute.append_of (F := Gen.combWild ctx (x :: after)) (φ := fun s => s) combWild_fuel combWild_some
      (fun n g w w' h1 => ⟨_, w', combWild_none hg0 n g w w' h1, ?_⟩) hts hc
    exact Mute.through (F := Gen.combWild ctx after) (φ := fun s => s) hR combWild_fuel combWild_some hy
  | cons b before ih =>
    intro cur ts hts hc
    obtain ⟨g0, hg0, hy⟩ := h b (by simp)
    have := ih (fun y hy => h y (by simp [hy])) (fun y hy => hb y (by simp [hy])) (hb b (by simp)) hy
    rw [List.flatMap_cons, List.length_append, Nat.add_assoc]
    exact Mute.append_of (F := Gen.combWild ctx (b :: before ++ x :: after)) (φ := fun s => s) combWild_fuel combWild_some
      (fun n g w w' h1 => ⟨_, w', combWild_none hg0 n g w w' h1, this⟩) hts hc

theorem combWrap_step {ctx : Ctx} {inner : Cmd} {wg wg' ig : Gen} {x : Str} {n : Nat} {w w' : W}
    (hi : sampleGen E ctx (.inr inner) = .ok ig) (h : (recs E n).G wg w = .ok (some (x, wg')) w') :
    (recs E (n + 1)).G (.combWrap ctx inner wg) w = (recs E n).G (.combWrapIn ctx inner wg' x ig) w' := by
  change ((recs E n).G wg >>= _) w = _
  rw [M.bind_of_ok h]
  dsimp only
  rw [M.bind_of_ok (a := ig) (w' := w') (by rw [hi]; rfl)]

theorem combWrapIn_some {ctx : Ctx} {inner : Cmd} {wg : Gen} {x : Str} (n : Nat) (g : Gen) (w : W) (v : Str) (g' : Gen) (w' : W)
    (h : (recs E n).G g w = .ok (some (v, g')) w') :
    (recs E (n + 1)).G (.combWrapIn ctx inner wg x g) w = .ok (some (wrapWith x v, .combWrapIn ctx inner wg x g')) w' := by
  change ((recs E n).G g >>= _) w = _
  rw [M.bind_of_ok h]
  rfl

theorem Mute.wrapInside {Q : Str → Prop} {k : Nat} {ctx : Ctx} {inner : Cmd} {wg ig : Gen} {x : Str} (h : Mute E Q k ig) :
    Mute E (fun s => ∃ y, Q y ∧ s = wrapWith x y) k (.combWrapIn ctx inner wg x ig) :=
  Mute.through (F := Gen.combWrapIn ctx inner wg x) (φ := wrapWith x) (fun v hv => ⟨v, hv, rfl⟩) (fun _ _ _ h => bind_no_answer h)
    combWrapIn_some h

theorem Mute.wrapAround {Q : Str → Prop} {k : Nat} {ctx : Ctx} {inner : Cmd} {wg ig : Gen} {ys : List Str}
    (hi : sampleGen E ctx (.inr inner) = .ok ig) (hy : Yx E ys ig) (h : Mute E Q k wg) :
    Mute E (fun s => ∃ x y, Q x ∧ y ∈ ys ∧ s = wrapWith x y) (k * ys.length) (.combWrap ctx inner wg) := by
  induction k generalizing wg with
  | zero => exact Mute.of_step fun n w => .inl (bind_no_answer (h n w))
  | succ k ih =>
    refine Mute.of_step fun n w => ?_
    rcases h n w with h | ⟨x, wg', w', h, h2, h3⟩
    · exact .inl (bind_no_answer h)
    · refine .inr ⟨_, w', combWrap_step hi h, ?_⟩
      rw [Nat.succ_mul, Nat.add_comm]
      refine Mute.append_of (F := Gen.combWrapIn ctx inner wg' x) (φ := wrapWith x) (fun _ _ _ h => bind_no_answer h) combWrapIn_some
        (fun n g w w' h1 => ⟨_, w', ?_, ih h3⟩) (fun y hy => ⟨x, y, h2, hy, rfl⟩) hy
      change ((recs E n).G g >>= _) w = _
      rw [M.bind_of_ok h1]

theorem Mute.mono {Q R : Str → Prop} {k : Nat} {g : Gen} (h : Mute E Q k g) (hR : ∀ s, Q s → R s) : Mute E R k g := by
  induction k generalizing g with
  | zero => exact h
  | succ k ih =>
    intro n w
    rcases h n w with h | ⟨v, g', w', h, h2, h3⟩
    · exact .inl h
    · exact .inr ⟨v, g', w', h, hR v h2, ih h3⟩

theorem startG_option {vars : List (Str × Cmd)} {being : List Str} {before after : List (Cmd × Rat)} {x : Cmd} {wx : Rat} {sep : Str}
    {m : Option Method} (hs : ¬ SingleWild (before ++ (x, wx) :: after)) (n : Nat) (w : W) :
    startG E (recs E n) ⟨.comb, vars, being⟩ (.variant (before ++ (x, wx) :: after) 1 1 sep m) w =
      .ok (.combVar ⟨.comb, vars, being⟩ sep [] ((before.map (·.1) ++ x :: after.map (·.1)).map fun c => (1, [c]))) w := by
  have hlen : adjustBounds (before ++ (x, wx) :: after).length 1 1 = (1, 1) := by
    have h1 : min (1 : Int) ((before ++ (x, wx) :: after).length : Int) = 1 := by
      rw [List.length_append, List.length_cons]
      omega
    rw [adjustBounds, h1]
    rfl
  have hmap : before.map (·.1) ++ x :: after.map (·.1) = (before ++ (x, wx) :: after).map (·.1) := by simp
  have hne : before ++ (x, wx) :: after ≠ [] := by simp
  rw [hmap, ← boundCombos_one]
  generalize before ++ (x, wx) :: after = opts at hs hlen hne
  match opts, hne, hs with
  | [(c, wt)], _, hs =>
    cases c with
    | wild p m v => exact absurd ⟨p, m, v, wt, rfl⟩ hs
    | _ => simp only [startG]; rfl
  | (a, _) :: b :: l, _, _ => cases a <;> (simp only [startG, hlen]; rfl)

/-- The combinations of one option give at most `m` texts. -/
def MuteP (E : Env W) (Q : Str → Prop) : Nat → PFrame → Prop
  | 0, fr => ∀ n w, (recs E n).P fr w = .fuel
  | m + 1, fr => ∀ n w, (recs E n).P fr w = .fuel ∨ ∃ v fr' w', (recs E n).P fr w = .ok (some ([v], fr')) w' ∧ Q v ∧ MuteP E Q m fr'

theorem MuteP.of_step {Q : Str → Prop} {m : Nat} {g : PFrame}
    (h : ∀ n w, (recs E (n + 1)).P g w = .fuel ∨ ∃ g' w', (recs E (n + 1)).P g w = (recs E n).P g' w' ∧ MuteP E Q m g') :
    MuteP E Q m g := by
  cases m with
  | zero =>
    intro n w
    cases n with
    | zero => rfl
    | succ n =>
      rcases h n w with h | ⟨g', w', h, h'⟩
      · exact h
      · rw [h]; exact h' n w'
  | succ m =>
    intro n w
    cases n with
    | zero => exact .inl rfl
    | succ n =>
      rcases h n w with h | ⟨g', w', h, h'⟩
      · exact .inl h
      · rw [h]; exact h' n w'

theorem Mute.weaken {Q : Str → Prop} {k : Nat} {g : Gen} (h : Mute E Q k g) : Mute E Q (k + 1) g := by
  induction k generalizing g with
  | zero => exact fun n w => .inl (h n w)
  | succ k ih =>
    intro n w
    rcases h n w with h | ⟨v, g', w', h, h2, h3⟩
    · exact .inl h
    · exact .inr ⟨v, g', w', h, h2, ih h3⟩

theorem MuteP.fin {Q : Str → Prop} {k : Nat} {ctx : Ctx} {g : Gen} (h : Mute E Q k g) : MuteP E Q k (.fin ctx [] g) := by
  induction k generalizing g with
  | zero =>
    intro n w
    cases n with
    | zero => rfl
    | succ n => exact bind_no_answer (h n w)
  | succ k ih =>
    intro n w
    cases n with
    | zero => exact .inl rfl
    | succ n =>
      rcases h n w with h | ⟨v, g', w', h, h2, h3⟩
      · exact .inl (bind_no_answer h)
      · have e : (recs E (n + 1)).P (.fin ctx [] g) w = (recs E n).P (.finIn ctx [] g' v (.start ctx [])) w' := by
          change ((recs E n).G g >>= _) w = _
          rw [M.bind_of_ok h]
        rw [e]
        match n with
        | 0 => exact .inl rfl
        | 1 => exact .inl rfl
        | n + 2 =>
          refine .inr ⟨v, .finIn ctx [] g' v .done, w', rfl, h2, MuteP.of_step fun n w => ?_⟩
          cases n with
          | zero => exact .inl rfl
          | succ n => exact .inr ⟨.fin ctx [] g', w, rfl, ih h3⟩

theorem MuteP.start {Q : Str → Prop} {k : Nat} {ctx : Ctx} {x : Cmd} {g : Gen} (hn : (ctx.effective x).nonfinite = false)
    (hg : mkGen E.unknown ctx x = .ok g) (h : Mute E Q k g) : MuteP E Q k (.start ctx [x]) := by
  refine MuteP.of_step fun n w => .inr ⟨.fin ctx [] g, w, ?_, .fin h⟩
  have hstep : (recs E (n + 1)).P (.start ctx [x]) w = stepP E (recs E n) (.start ctx [x]) w := rfl
  rw [hstep]
  simp only [stepP]
  rw [M.bind_of_ok (a := g) (w' := w) (by rw [hg]; rfl), if_neg (by rw [hn]; simp)]

theorem Mute.combVarIn {Q : Str → Prop} {k : Nat} {ctx : Ctx} {sep : Str} {pend : List (Nat × List Cmd)} {seen : List (List Str)}
    {fr : PFrame} (h : MuteP E Q k fr) : Mute E Q k (.combVarIn ctx sep seen pend 1 fr) := by
  induction k generalizing seen fr with
  | zero =>
    intro n w
    cases n with
    | zero => rfl
    | succ n => exact bind_no_answer (h n w)
  | succ k ih =>
    intro n w
    cases n with
    | zero => exact .inl rfl
    | succ n =>
      have hstep : (recs E (n + 1)).G (.combVarIn ctx sep seen pend 1 fr) w = stepG E (recs E n) (.combVarIn ctx sep seen pend 1 fr) w := rfl
      rw [hstep]
      simp only [stepG]
      rcases h n w with h | ⟨v, fr', w', h, h2, h3⟩
      · exact .inl (bind_no_answer h)
      · rw [M.bind_of_ok h]
        by_cases hs : seen.contains [v]
        · simp only [dedupe_single, hs]
          simpa using (ih (seen := seen) h3).weaken n w'
        · refine .inr ⟨v, _, w', ?_, h2, ih (seen := [v] :: seen) h3⟩
          simp only [dedupe_single, hs]
          rfl

theorem Mute.optionBefore {Q : Str → Prop} {k : Nat} {ctx : Ctx} {sep : Str} {pend : List (Nat × List Cmd)} {seen : List (List Str)}
    {fr : PFrame} {tss : List (List Str)} (h : YP E tss fr) (ht : ∀ t ∈ tss, ∃ v, Q v ∧ t = [v])
    (hr : ∀ seen, Mute E Q k (.combVar ctx sep seen pend)) :
    Mute E Q (tss.length + k) (.combVarIn ctx sep seen pend 1 fr) := by
  induction tss generalizing seen fr with
  | nil =>
    rw [List.length_nil, Nat.zero_add]
    refine Mute.of_step fun n w => ?_
    obtain ⟨w', h1⟩ := h w
    rcases NextP.at h1 n with h4 | h4
    · exact .inl (bind_no_answer h4)
    · refine .inr ⟨.combVar ctx sep seen pend, w', ?_, hr seen⟩
      change ((recs E n).P fr >>= _) w = _
      rw [M.bind_of_ok h4]
  | cons t tss ih =>
    rw [List.length_cons, Nat.add_right_comm]
    intro n w
    cases n with
    | zero => exact .inl rfl
    | succ n =>
      have hstep : (recs E (n + 1)).G (.combVarIn ctx sep seen pend 1 fr) w = stepG E (recs E n) (.combVarIn ctx sep seen pend 1 fr) w := rfl
      rw [hstep]
      simp only [stepG]
      obtain ⟨fr', w', h1, h3⟩ := h w
      obtain ⟨v, hv, rfl⟩ := ht t (by simp)
      replace ht : ∀ t ∈ tss, ∃ v, Q v ∧ t = [v] := fun t h => ht t (by simp [h])
      rcases NextP.at h1 n with h4 | h4
      · exact .inl (bind_no_answer h4)
      · rw [M.bind_of_ok h4]
        by_cases hs : seen.contains [v]
        · simp only [dedupe_single, hs]
          simpa using (ih (seen := seen) h3 ht).weaken n w'
        · refine .inr ⟨v, _, w', ?_, hv, ih (seen := [v] :: seen) h3 ht⟩
          simp only [dedupe_single, hs]
          rfl

theorem Mute.combVar {R Q : Str → Prop} {k : Nat} {ctx : Ctx} {sep : Str} {f : Cmd → List Str} {x : Cmd} {g : Gen}
    (hn : (ctx.effective x).nonfinite = false) (hg : mkGen E.unknown ctx x = .ok g) (h : Mute E R k g) (hR : ∀ s, R s → Q s)
    (before after : List Cmd)
    (hb : ∀ c ∈ before, (ctx.effective c).nonfinite = false ∧ ∃ g, mkGen E.unknown ctx c = .ok g ∧ Yx E (f c) g)
    (hf : ∀ c ∈ before, ∀ s ∈ f c, Q s) (seen : List (List Str)) :
    Mute E Q ((before.flatMap f).length + k) (.combVar ctx sep seen ((before ++ x :: after).map fun c => (1, [c]))) := by
  induction before generalizing seen with
  | nil =>
    refine Mute.of_step fun n w => .inr ⟨.combVarIn ctx sep seen (after.map fun c => (1, [c])) 1 (.start ctx [x]), w, rfl, ?_⟩
    have := Mute.combVarIn (ctx := ctx) (sep := sep) (pend := after.map fun c => (1, [c])) (seen := seen)
      (MuteP.start (ctx := ctx) hn hg (h.mono hR))
    simpa using this
  | cons c before ih =>
    refine Mute.of_step fun n w =>
      .inr ⟨.combVarIn ctx sep seen ((before ++ x :: after).map fun c => (1, [c])) 1 (.start ctx [c]), w, rfl, ?_⟩
    have := Mute.optionBefore (Q := Q) (k := (before.flatMap f).length + k) (ctx := ctx) (sep := sep) (seen := seen)
      (pend := (before ++ x :: after).map fun c => (1, [c])) (YP.start (ctx := ctx) (f := f) (cs := [c]) fun c' hc => ?_) (fun t ht => ?_)
      fun seen => ih (fun c hc => hb c (by simp [hc])) (fun c hc => hf c (by simp [hc])) seen
    · have e : (product ([c].map f)).length = (f c).length := by simp [product]
      rw [e] at this
      rw [List.flatMap_cons, List.length_append, Nat.add_assoc]
      exact this
    · simp only [List.mem_singleton] at hc
      subst hc
      exact hb c' (by simp)
    · simp [product] at ht
      obtain ⟨v, hv, rfl⟩ := ht
      exact ⟨v, hf c (by simp) v hv, rfl⟩

mutual
theorem starving_mute {vars : List (Str × Cmd)} {being : List Str} {c : Cmd} {N : Nat} {Q : Str → Prop}
    (h : Starving E vars being c N Q) : ∃ g, mkGen E.unknown ⟨.comb, vars, being⟩ c = .ok g ∧ Mute E Q N g := by
  match h with
  | .variant (before := before) (x := x) (wx := wx) (after := after) (sep := sep) f T hm hs hb hx hP hT =>
    refine mkGen_mute_of_start (by simp) (by simp) hm ?_
    obtain ⟨g, hg, hu⟩ := neverEnds_unending hP
    generalize hall : before.flatMap (fun p => f p.1) ++ T = all
    have hst : ∀ m, Starves E all m [] (.combVar ⟨.comb, vars, being⟩ sep []
        ((before.map (·.1) ++ x :: after.map (·.1)).map fun c => (1, [c]))) := fun m => by
      refine Starves.combVar (f := f) (effective_finite (ctx := ⟨.comb, vars, being⟩) hx rfl) hg hu (fun n s hs => ?_) _ _
        (fun c hc => ?_) (fun c hc s hs => ?_) m []
      · rw [← hall]
        exact List.mem_append.2 (.inr (hT n s hs))
      · obtain ⟨p, hp, rfl⟩ := List.mem_map.1 hc
        exact ⟨effective_finite (lists_finite (hb p hp)) rfl, lists_Yx (hb p hp)⟩
      · obtain ⟨p, hp, rfl⟩ := List.mem_map.1 hc
        rw [← hall]
        exact List.mem_append.2 (.inl (List.mem_flatMap.2 ⟨p, hp, hs⟩))
    have hmute := Mute.of_starves (E := E) all.dedup.length hst (by
      rw [← List.card_toFinset]
      exact Finset.card_filter_le _ _)
    refine Mute.start (by simp) fun n w => .inr ⟨_, w, ?_, hmute⟩
    exact startG_option hs n w
  | .option (before := before) (x := x) (wx := wx) (after := after) (sep := sep) (Q := Q) f hm hs hb hx h' =>
    refine mkGen_mute_of_start (by simp) (by simp) hm ?_
    obtain ⟨g, hg, hu⟩ := starving_mute h'
    refine Mute.start (by simp) fun n w => .inr ⟨_, w, startG_option hs n w, ?_⟩
    have := Mute.combVar (Q := fun s => s ∈ before.flatMap (fun p => f p.1) ∨ Q s) (sep := sep) (f := f)
      (effective_finite (ctx := ⟨.comb, vars, being⟩) hx rfl) hg hu (fun _ => .inr) (before.map (·.1)) (after.map (·.1))
      (fun c hc => ?_) (fun c hc s hs => ?_) []
    · rwa [List.flatMap_map] at this
    · obtain ⟨p, hp, rfl⟩ := List.mem_map.1 hc
      exact ⟨effective_finite (lists_finite (hb p hp)) rfl, lists_Yx (hb p hp)⟩
    · obtain ⟨p, hp, rfl⟩ := List.mem_map.1 hc
      exact .inl (List.mem_flatMap.2 ⟨p, hp, hs⟩)
  | .access hr hb h' =>
    obtain ⟨g, hg, hl⟩ := starving_mute h'
    refine ⟨g, ?_, hl⟩
    obtain ⟨o, ho⟩ := chain_total E.unknown vars (_ :: being) _
    rw [mkGen_outcome (ctx := ⟨.comb, vars, being⟩) (.step hr hb ho), ← hg,
      mkGen_outcome (ctx := ⟨.comb, vars, _ :: being⟩) ho]
    cases o <;> rfl
  | .seq hm hA hb has hx h' hr => exact mkGen_mute_of_start (by simp) (by simp) hm (starving_seq hA hb has hx (starving_mute h') hr)
  | .wild (path := path) (v := v) (items := items) (before := before) (x := x) (after := after) (Q := Q) f hm hp hans hi hb hx =>
    refine mkGen_mute_of_start (by simp) (by simp) hm ?_
    have hmute := Mute.combWild (Q := fun s => s ∈ before.flatMap f ∨ Q s) (ctx := ⟨.comb, v ++ vars, being⟩) (after := after) (f := f)
      (starvingPrompt_mute hx) (fun _ => .inr) (before := before) (fun y hy => listsPrompt_Yx (hb y hy))
      (fun y hy s hs => .inl (List.mem_flatMap.2 ⟨y, hy, hs⟩)) (cur := .done) (ts := []) (by simp) Yx.done
    rw [List.nil_append] at hmute
    refine Mute.start (by simp) fun n w => ?_
    have hie : items.isEmpty = false := by
      cases items with
      | nil => simp [iterateWeighted] at hi
      | cons _ _ => rfl
    rcases sampleFirst_mute (listsPrompt_Yx hp) n w with h3 | ⟨w1, h3⟩
    · exact .inl (bind_no_answer h3)
    · obtain ⟨w2, h2⟩ := hans w1
      refine .inr ⟨.combWild ⟨.comb, v ++ vars, being⟩ (iterateWeighted items) .done, w2, ?_, by rw [hi]; exact hmute⟩
      simp only [startG]
      rw [M.bind_of_ok h3, M.bind_of_ok h2]
      simp only [hie]
      rfl
  | .inside (w := w0) (i := i) (x := x) hm hw hi =>
    refine mkGen_mute_of_start (by simp) (by simp) hm ?_
    obtain ⟨wg, hwg, hwy⟩ := listsPrompt_Yx hw
    obtain ⟨ig, hig, hiy⟩ := starvingPrompt_mute hi
    refine Mute.start (by simp) fun n w => .inr ⟨.combWrap ⟨.comb, vars, being⟩ i wg, w, ?_, ?_⟩
    · simp only [startG, hwg]; rfl
    · refine Mute.of_step fun n w => ?_
      obtain ⟨v, g', w', h1, h2, -⟩ := hwy w
      replace h2 : v = x := h2
      subst h2
      rcases h1.at n with h1 | h1
      · exact .inl (bind_no_answer h1)
      · exact .inr ⟨_, w', combWrap_step hig h1, Mute.wrapInside hiy⟩
  | .around (w := w0) (i := i) (ys := ys) (Q := Q) hm hw hi =>
    refine mkGen_mute_of_start (by simp) (by simp) hm ?_
    obtain ⟨wg, hwg, hwy⟩ := starvingPrompt_mute hw
    obtain ⟨ig, hig, hiy⟩ := listsPrompt_Yx hi
    refine Mute.start (by simp) fun n w => .inr ⟨.combWrap ⟨.comb, vars, being⟩ i wg, w, ?_, Mute.wrapAround hig hiy hwy⟩
    simp only [startG, hwg]; rfl
theorem starvingPrompt_mute {vars : List (Str × Cmd)} {being : List Str} {p : Prompt} {N : Nat} {Q : Str → Prop}
    (h : StarvingPrompt E vars being p N Q) : ∃ g, sampleGen E ⟨.comb, vars, being⟩ p = .ok g ∧ Mute E Q N g := by
  match h with
  | .text (s := s) hne hp hc =>
    obtain ⟨g, hg, hl⟩ := starving_mute hc
    refine ⟨if E.ignoreWs then .squash g else g, ?_, hl.squashIf⟩
    cases s with
    | nil => exact absurd rfl hne
    | cons a s => simp [sampleGen, hp, hg]
  | .cmd ht hc =>
    obtain ⟨g, hg, hl⟩ := starving_mute hc
    refine ⟨if E.ignoreWs then .squash g else g, ?_, hl.squashIf⟩
    simp [sampleGen, ht, hg]
end

theorem Mute.collect {Q : Str → Prop} (n k : Nat) {m : Nat} {g : Gen} (h : Mute E Q m g) (w : W) :
    (∀ s ∈ (collect E n k g w).1, Q s) ∧ (Verif.collect E n k g w).1.length ≤ m ∧
      ((Verif.collect E n k g w).2 = .fuel ∨ (∃ g' w', (Verif.collect E n k g w).2 = .limit g' w') ∧ (Verif.collect E n k g w).1.length = k) := by
  induction k generalizing m g w with
  | zero => simp [Verif.collect]
  | succ k ih =>
    cases m with
    | zero => simp [Verif.collect, nextG, h n w]
    | succ m =>
      rcases h n w with h | ⟨v, g', w', h, h2, h3⟩
      · simp [Verif.collect, nextG, h]
      · obtain ⟨i1, i2, i3⟩ := ih h3 w'
        simp only [Verif.collect, nextG, h]
        refine ⟨?_, by simpa using i2, ?_⟩
        · intro s hs
          rcases List.mem_cons.1 hs with rfl | hs
          · exact h2
          · exact i1 s hs
        · rcases i3 with i | ⟨i, i'⟩
          · exact .inl i
          · exact .inr ⟨i, by simp [i']⟩

end Verif
