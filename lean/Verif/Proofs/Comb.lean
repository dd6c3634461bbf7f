import Verif.Proofs.Runs
import Verif.Spec.Enumerate
import Mathlib.Data.List.Sort
/-! Combinatorial sampling of plain templates yields the specified list. -/

namespace Verif
open Spec
variable {W : Type} {E : Env W}

/-! ### Lists -/

/-- Tuples without repeated entries that are not in `seen`, first occurrences only. -/
def firsts (seen : List (List Str)) : List (List Str) → List (List Str)
  | [] => []
  | t :: ts => if t.Nodup ∧ ¬ seen.contains t then t :: firsts (t :: seen) ts else firsts seen ts

theorem firsts_eq (seen ts : List (List Str)) :
    firsts seen ts = (ts.filter (fun t => decide (t.Nodup ∧ ¬ seen.contains t))).eraseDups := by
  induction ts generalizing seen with
  | nil => rfl
  | cons t ts ih =>
    unfold firsts
    by_cases h : t.Nodup ∧ ¬ seen.contains t
    · rw [if_pos h, List.filter_cons_of_pos (by simpa using h), List.eraseDups_cons, ih,
        List.filter_filter]
      congr 2
      apply List.filter_congr
      intro x _
      by_cases hx : x = t
      · subst hx; simp
      · have : (x == t) = false := by simpa using hx
        simp [hx]
    · rw [if_neg h, List.filter_cons_of_neg (by simpa using h), ih]

theorem product_length {α : Type} {ls : List (List α)} {t : List α} (h : t ∈ product ls) :
    t.length = ls.length := by
  induction ls generalizing t with
  | nil => simp [product] at h; simp [h]
  | cons l ls ih =>
    simp only [product, List.mem_flatMap, List.mem_map] at h
    obtain ⟨x, -, t', ht', rfl⟩ := h
    simp [ih ht']

theorem power_filter_not_mem {α : Type} [DecidableEq α] (k : Nat) (l : List α) (v : α) :
    product (List.replicate k (l.filter (fun u => u ≠ v))) =
      (product (List.replicate k l)).filter (fun t => decide (v ∉ t)) := by
  induction k with
  | zero => simp [product]
  | succ k ih =>
    simp only [List.replicate_succ, product]
    rw [ih, List.filter_flatMap]
    generalize product (List.replicate k l) = P
    clear ih
    induction l with
    | nil => rfl
    | cons a l ihl =>
      by_cases ha : a = v
      · subst ha
        rw [List.filter_cons_of_neg (by simp), ihl, List.flatMap_cons]
        have : (P.map (a :: ·)).filter (fun t => decide (a ∉ t)) = [] := by
          rw [List.filter_eq_nil_iff]
          intro t ht
          obtain ⟨t', -, rfl⟩ := List.mem_map.1 ht
          simp
        rw [this, List.nil_append]
      · rw [List.filter_cons_of_pos (by simpa using ha), List.flatMap_cons, List.flatMap_cons, ihl]
        congr 1
        rw [List.filter_map]
        congr 1
        apply List.filter_congr
        intro t _
        have hv : v ≠ a := fun e => ha e.symm
        simp [hv]

theorem getCombos_eq_selections {α : Type} [DecidableEq α] (k : Nat) (l : List α) :
    getCombos k l = selections k l := by
  induction k generalizing l with
  | zero => simp [getCombos, selections, product]
  | succ k ih =>
    simp only [getCombos, selections, List.replicate_succ, product]
    rw [List.filter_flatMap]
    congr 1
    funext v
    rw [ih, selections, power_filter_not_mem, List.filter_filter, List.filter_map]
    congr 1
    apply List.filter_congr
    intro t _
    simp only [Function.comp_apply, List.nodup_cons]
    by_cases h1 : v ∈ t <;> by_cases h2 : t.Nodup <;> simp [h1, h2]

theorem boundRange_eq_sizes (n : Nat) (lo hi : Int) :
    boundRange (adjustBounds n lo hi).1 (adjustBounds n lo hi).2 = sizes n lo hi := by
  have hnn := adjust_nonneg n lo hi
  have s1 : (boundRange (adjustBounds n lo hi).1 (adjustBounds n lo hi).2).Pairwise (· < ·) := by
    unfold boundRange
    rw [List.pairwise_map]
    exact List.pairwise_lt_range.imp (by intro a b h; omega)
  have s2 : (sizes n lo hi).Pairwise (· < ·) := List.pairwise_lt_range.filter _
  refine List.Perm.eq_of_pairwise (le := (· < ·)) (fun a b _ _ h1 h2 => by omega) s1 s2 ?_
  rw [List.perm_ext_iff_of_nodup (s1.imp (fun h => Nat.ne_of_lt h)) (s2.imp (fun h => Nat.ne_of_lt h))]
  intro b
  rw [mem_boundRange hnn]
  simp only [sizes, List.mem_filter, List.mem_range, decide_eq_true_eq]
  simp only [adjustBounds, normBounds] at *
  omega

theorem enumL_eq (ws : Bool) (cs : List Cmd) : enumL ws cs = cs.map (enum ws) := by
  induction cs with
  | nil => rfl
  | cons c cs ih => simp [enumL, ih]

theorem enumO_eq (ws : Bool) (os : List (Cmd × Rat)) :
    enumO ws os = (os.map (·.1)).map fun c => (c, enum ws c) := by
  induction os with
  | nil => rfl
  | cons o os ih => obtain ⟨c, x⟩ := o; simp [enumO, ih]

theorem getCombos_map {α β : Type} [DecidableEq α] [DecidableEq β] (f : α → β)
    (hf : Function.Injective f) (k : Nat) (l : List α) :
    getCombos k (l.map f) = (getCombos k l).map (fun t => t.map f) := by
  induction k generalizing l with
  | zero => rfl
  | succ k ih =>
    simp only [getCombos, List.flatMap_map, List.map_flatMap, List.map_map]
    congr 1
    funext v
    have : (l.map f).filter (fun u => u ≠ f v) = (l.filter (fun u => u ≠ v)).map f := by
      rw [List.filter_map]
      congr 1
      apply List.filter_congr
      intro x _
      simp [hf.eq_iff]
    rw [this, ih, List.map_map]
    rfl


/-! ### Variants -/

theorem dedupeAux_length_iff (l seen : List Str) :
    (dedupeAux (fun s : Str => s) seen l).length = l.length ↔ l.Nodup ∧ ∀ x ∈ l, x ∉ seen := by
  induction l generalizing seen with
  | nil => simp [dedupeAux]
  | cons a l ih =>
    unfold dedupeAux
    by_cases h : seen.contains a = true
    · rw [if_pos h]
      have hlen : (dedupeAux (fun s : Str => s) seen l).length ≤ l.length := by
        clear ih h
        induction l generalizing seen with
        | nil => simp [dedupeAux]
        | cons b l ih =>
          unfold dedupeAux
          split
          · exact (ih _).trans (by simp)
          · simpa using ih _
      constructor
      · intro h'; simp only [List.length_cons] at h'; omega
      · rintro ⟨-, h2⟩
        exact absurd (by simpa using h) (h2 a (by simp))
    · rw [if_neg h]
      simp only [List.length_cons, Nat.add_right_cancel_iff, List.nodup_cons]
      rw [ih]
      have h' : a ∉ seen := by simpa using h
      constructor
      · rintro ⟨h1, h2⟩
        refine ⟨⟨fun ha => ?_, h1⟩, ?_⟩
        · exact absurd (by simp) (h2 a ha)
        · intro x hx
          rcases List.mem_cons.1 hx with rfl | hx
          · exact h'
          · exact fun hs => h2 x hx (by simp [hs])
      · rintro ⟨⟨h1, h2⟩, h3⟩
        refine ⟨h2, fun x hx => ?_⟩
        simp only [List.mem_cons, not_or]
        exact ⟨by rintro rfl; exact h1 hx, h3 x (by simp [hx])⟩

theorem dedupe_length_iff (l : List Str) :
    (dedupe (fun s : Str => s) l).length = l.length ↔ l.Nodup := by
  unfold dedupe
  rw [dedupeAux_length_iff]; simp

theorem dedupeAux_sub2 (l : List Str) (seen : List Str) :
    (dedupeAux (fun s : Str => s) seen l).Sublist l := by
  induction l generalizing seen with
  | nil => exact List.Sublist.refl _
  | cons a l ih =>
    unfold dedupeAux
    split
    · exact (ih _).cons _
    · exact (ih _).cons_cons _

theorem dedupe_of_nodup {l : List Str} (h : l.Nodup) : dedupe (fun s : Str => s) l = l :=
  (dedupeAux_sub2 l []).eq_of_length ((dedupe_length_iff l).2 h)

theorem yields_combVarIn {ctx : Ctx} {sep : Str} {pend : List (Nat × List Cmd)} {b : Nat} {fr : PFrame}
    {w : W} {tss R : List (List Str)} (hP : YieldsP E w fr tss) (hlen : ∀ t ∈ tss, t.length = b)
    (hrest : ∀ seen, Yields E w (.combVar ctx sep seen pend) ((firsts seen R).map (joined sep))) :
    ∀ seen, Yields E w (.combVarIn ctx sep seen pend b fr) ((firsts seen (tss ++ R)).map (joined sep)) := by
  induction hP with
  | stop h =>
    intro seen
    refine Yields.of_next (hrest seen) fun o ho => NextG.of_step ?_
    exact Ev.bind (f := fun n => _) h ho
  | @cons fr t fr' tss h _ ih =>
    intro seen
    have ih := ih (fun t ht => hlen t (by simp [ht]))
    have hb : t.length = b := hlen t (by simp)
    rw [List.cons_append, firsts]
    have hiff : ((dedupe (fun s : Str => s) t).length = b ∧ ¬ seen.contains (dedupe (fun s : Str => s) t)) ↔
        (t.Nodup ∧ ¬ seen.contains t) := by
      rw [← hb, dedupe_length_iff]
      constructor
      · rintro ⟨h1, h2⟩; rw [dedupe_of_nodup h1] at h2; exact ⟨h1, h2⟩
      · rintro ⟨h1, h2⟩; rw [dedupe_of_nodup h1]; exact ⟨h1, h2⟩
    by_cases hc : t.Nodup ∧ ¬ seen.contains t
    · rw [if_pos hc]
      refine .cons (NextG.of_step (Ev.bind (f := fun n => _) h (Ev.of fun n => ?_))) (ih (t :: seen))
      dsimp only
      rw [if_pos (hiff.2 hc), dedupe_of_nodup hc.1]
      rfl
    · rw [if_neg hc]
      refine Yields.of_next (ih seen) fun o ho => NextG.of_step (Ev.bind (f := fun n => _) h ?_)
      refine ho.mp fun n hn => ?_
      dsimp only
      rw [if_neg (fun h => hc (hiff.1 h))]
      exact hn

theorem yields_combVar {ctx : Ctx} {sep : Str} {w : W} {tup : List Cmd → List (List Str)}
    {pend : List (Nat × List Cmd)}
    (h : ∀ p ∈ pend, YieldsP E w (.start ctx p.2) (tup p.2) ∧ ∀ t ∈ tup p.2, t.length = p.1) :
    ∀ seen, Yields E w (.combVar ctx sep seen pend)
      ((firsts seen (pend.flatMap fun p => tup p.2)).map (joined sep)) := by
  induction pend with
  | nil => intro seen; exact .stop (NextG.of_step (Ev.of fun _ => rfl))
  | cons p pend ih =>
    intro seen
    obtain ⟨b, combo⟩ := p
    obtain ⟨h1, h2⟩ := h (b, combo) (by simp)
    rw [List.flatMap_cons]
    have := yields_combVarIn (ctx := ctx) (sep := sep) (pend := pend) h1 h2
      (ih (fun p hp => h p (by simp [hp]))) seen
    exact Yields.of_next this fun o ho => NextG.of_step ho

/-! ### Plain templates -/

theorem withMethod_comb {ctx : Ctx} (h : ctx.method = .comb) : ctx.withMethod .comb = ctx := by
  cases ctx; simp only at h; subst h; rfl

theorem effMethod_finite {m : Option Method} (h : Finite m) : effMethod .comb m = .comb := by
  rcases h with rfl | rfl <;> rfl

theorem plain_finite {ws : Bool} {c : Cmd} (h : Plain ws c) : Finite c.method := by
  cases h <;> assumption

theorem mkGen_plain {u : Option Cmd} {ws : Bool} {c : Cmd} (h : Plain ws c) {ctx : Ctx}
    (hm : ctx.method = .comb) : mkGen u ctx c = .ok (.start ctx c) := by
  have he : ctx.withMethod (effMethod ctx.method c.method) = ctx := by
    rw [hm, effMethod_finite (plain_finite h), withMethod_comb hm]
  unfold mkGen chainFuel
  cases h with
  | wrap =>
    simp only [mkGenF, he]
    rw [if_neg (by rw [hm]; simp)]
  | _ => simp [mkGenF, he]

theorem mkGens_plain {u : Option Cmd} {ws : Bool} {cs : List Cmd} (h : ∀ c ∈ cs, Plain ws c) {ctx : Ctx}
    (hm : ctx.method = .comb) : mkGens u ctx cs = .ok (cs.map (Gen.start ctx)) := by
  induction cs with
  | nil => rfl
  | cons c cs ih =>
    simp [mkGens, mkGen_plain (h c (by simp)) hm, ih (fun c hc => h c (by simp [hc]))]

theorem effective_plain {ws : Bool} {c : Cmd} (h : Plain ws c) {ctx : Ctx} (hm : ctx.method = .comb) :
    (ctx.effective c).nonfinite = false := by
  unfold Ctx.effective
  rcases (plain_finite h) with h | h <;> simp [h, hm, Method.nonfinite]

theorem yieldsP_plain {ws : Bool} {ctx : Ctx} (hm : ctx.method = .comb) {w : W} {cs : List Cmd}
    (h : ∀ c ∈ cs, Plain ws c) (hy : ∀ c ∈ cs, Yields E w (.start ctx c) (enum ws c)) :
    YieldsP E w (.start ctx cs) (product (cs.map (enum ws))) := by
  induction cs with
  | nil =>
    exact .cons (NextP.of_step (Ev.of fun _ => rfl)) (.stop (NextP.of_step (Ev.of fun _ => rfl)))
  | cons c cs ih =>
    have ih := ih (fun c hc => h c (by simp [hc])) (fun c hc => hy c (by simp [hc]))
    refine YieldsP.of_next (yieldsP_fin (hy c (by simp)) ih) fun o ho => NextP.of_step ?_
    refine ho.mp fun n hn => ?_
    simp only [stepP]
    rw [M.bind_of_ok (a := .start ctx c) (w' := w) (by rw [mkGen_plain (h c (by simp)) hm]; rfl)]
    rw [if_neg (by rw [effective_plain (h c (by simp)) hm]; simp)]
    exact hn

theorem yieldsS_plain {ws : Bool} {ctx : Ctx} (hm : ctx.method = .comb) {w : W} {coll : Coll}
    {cs : List Cmd} (h : ∀ c ∈ cs, Plain ws c)
    (hy : ∀ c ∈ cs, Yields E w (.start ctx c) (enum ws c)) :
    YieldsS E w coll (.start ctx cs) (product (cs.map (enum ws))) := by
  induction cs with
  | nil =>
    exact .cons (NextS.of_step (Ev.of fun _ => rfl)) (.stop (NextS.of_step (Ev.of fun _ => rfl)))
  | cons c cs ih =>
    have ih := ih (fun c hc => h c (by simp [hc])) (fun c hc => hy c (by simp [hc]))
    refine YieldsS.of_next (yieldsS_fin (hy c (by simp)) ih) fun o ho => NextS.of_step ?_
    refine ho.mp fun n hn => ?_
    simp only [stepS]
    rw [if_neg (by rw [effective_plain (h c (by simp)) hm]; simp)]
    rw [M.bind_of_ok (a := .start ctx c) (w' := w) (by rw [mkGen_plain (h c (by simp)) hm]; rfl)]
    exact hn

theorem assigns_plain {ws : Bool} {r : Recs W} {ctx : Ctx} {w : W} {cs : List Cmd}
    (h : ∀ c ∈ cs, Plain ws c) : r.assigns E ctx cs w = .ok (cs, []) w := by
  induction cs with
  | nil => rfl
  | cons c cs ih =>
    have ih := ih (fun c hc => h c (by simp [hc]))
    have hc := h c (by simp)
    cases hc <;> (unfold Recs.assigns; rw [M.bind_of_ok ih]; rfl)

theorem firstValues_plain {ws : Bool} {ctx : Ctx} {w : W} {cs : List Cmd}
    (hy : ∀ c ∈ cs, Yields E w (.start ctx c) (enum ws c)) (hne : ∀ c ∈ cs, enum ws c ≠ []) :
    ∃ coll, Ev fun n => (recs E n).firstValues (cs.zip (cs.map (Gen.start ctx))) w = .ok coll w := by
  induction cs with
  | nil => exact ⟨[], Ev.of fun _ => rfl⟩
  | cons c cs ih =>
    obtain ⟨coll, ih⟩ := ih (fun c hc => hy c (by simp [hc])) (fun c hc => hne c (by simp [hc]))
    have h1 := hy c (by simp)
    have h2 := hne c (by simp)
    cases he : enum ws c with
    | nil => exact absurd he h2
    | cons v vs =>
      rw [he] at h1
      cases h1 with
      | @cons _ _ g' _ h1 _ =>
        refine ⟨(c, g', some v) :: coll, ?_⟩
        simp only [List.map_cons, List.zip_cons_cons, Recs.firstValues]
        refine Ev.bind (f := fun n => _) (a := (v, g')) (w1 := w) ?_ ?_
        · exact Ev.bind (f := fun n => _) h1 (Ev.of fun n => rfl)
        · exact Ev.bind (f := fun n => _) ih (Ev.of fun n => rfl)

theorem product_pad (xss : List (List Str)) :
    product ([[]] :: xss ++ [[[]]]) = (product xss).map fun t => [] :: t ++ [[]] := by
  have : ∀ xss : List (List Str), product (xss ++ [[[]]]) = (product xss).map fun t => t ++ [[]] := by
    intro xss
    induction xss with
    | nil => rfl
    | cons xs xss ih => simp [product, ih, List.map_flatMap, List.map_map, Function.comp_def]
  show product ([[]] :: (xss ++ [[[]]])) = _
  simp [product, this, List.map_map, Function.comp_def]

theorem yields_start {ctx : Ctx} {c : Cmd} {w : W} {g : Gen} {outs : List Str}
    (hl : ∀ s m, c ≠ .lit s m) (hs : Ev fun n => startG E (recs E n) ctx c w = .ok g w)
    (h : Yields E w g outs) : Yields E w (.start ctx c) outs := by
  refine Yields.of_next h fun o ho => NextG.of_step ?_
  have key : Ev fun n => (startG E (recs E n) ctx c >>= fun g => (recs E n).G g) w = o :=
    Ev.bind (f := fun n g => (recs E n).G g) hs ho
  cases c with
  | lit s m => exact absurd rfl (hl s m)
  | _ => exact key

theorem boundCombos_flat {α : Type} [DecidableEq α] (l : List α) (n : Nat) (lo hi : Int) :
    boundCombos l (adjustBounds n lo hi).1 (adjustBounds n lo hi).2 =
      (sizes n lo hi).flatMap fun k => (selections k l).map fun c => (k, c) := by
  simp only [boundCombos, boundRange_eq_sizes, getCombos_eq_selections]

theorem selections_map {α β : Type} [DecidableEq α] [DecidableEq β] (f : α → β)
    (hf : Function.Injective f) (k : Nat) (l : List α) :
    selections k (l.map f) = (selections k l).map (fun t => t.map f) := by
  rw [← getCombos_eq_selections, ← getCombos_eq_selections, getCombos_map f hf]

theorem yields_combWrapIn {ctx : Ctx} {inner : Cmd} {wg ig : Gen} {x : Str} {w : W} {ys R : List Str}
    (hy : Yields E w ig ys) (hr : Yields E w (.combWrap ctx inner wg) R) :
    Yields E w (.combWrapIn ctx inner wg x ig) (ys.map (wrapWith x) ++ R) := by
  induction hy with
  | stop h => exact Yields.of_next hr fun o ho => NextG.of_step (Ev.bind (f := fun n => _) h ho)
  | cons h _ ih => exact .cons (NextG.of_step (Ev.bind (f := fun n => _) h (Ev.of fun _ => rfl))) ih

theorem yields_combWrap {ctx : Ctx} {inner : Cmd} {wg ig : Gen} {w : W} {xs ys : List Str}
    (hi : sampleGen E ctx (.inr inner) = .ok ig) (hy : Yields E w ig ys) (hx : Yields E w wg xs) :
    Yields E w (.combWrap ctx inner wg) (xs.flatMap fun x => ys.map (wrapWith x)) := by
  induction hx with
  | stop h => exact .stop (NextG.of_step (Ev.bind (f := fun n => _) h (Ev.of fun _ => rfl)))
  | cons h _ ih =>
    refine Yields.of_next (yields_combWrapIn hy ih) fun o ho =>
      NextG.of_step (Ev.bind (f := fun n => _) h ?_)
    refine ho.mp fun n hn => ?_
    dsimp only
    rw [M.bind_of_ok (a := ig) (w' := w) (by rw [hi]; rfl)]
    exact hn

theorem yields_sampleGen_cmd {ctx : Ctx} {c : Cmd} {w : W} (h : Plain E.ignoreWs c)
    (hm : ctx.method = .comb) (hy : Yields E w (.start ctx c) (enum E.ignoreWs c)) :
    ∃ g, sampleGen E ctx (.inr c) = .ok g ∧
      Yields E w g ((unlessEmpty c (enum E.ignoreWs c)).map (squashIf E.ignoreWs)) := by
  unfold sampleGen unlessEmpty
  by_cases ht : c.truthy = true
  · simp only [ht, mkGen_plain h hm, Bool.not_true, Bool.false_eq_true, if_false, if_true]
    refine ⟨_, rfl, ?_⟩
    by_cases hw : E.ignoreWs = true
    · have : squashIf E.ignoreWs = squashWhitespace := by funext s; simp [squashIf, hw]
      rw [this, if_pos hw]
      exact Yields.squash hy
    · have : squashIf E.ignoreWs = id := by funext s; simp [squashIf, hw]
      rw [this, List.map_id, if_neg hw]
      exact hy
  · simp only [ht, Bool.not_false, if_true, Bool.false_eq_true, if_false]
    exact ⟨_, rfl, Yields.done⟩

/-- Main lemma: a plain template in a combinatorial context yields exactly the specified texts. -/
theorem yields_plain {c : Cmd} (h : Plain E.ignoreWs c) (w : W) :
    ∀ ctx : Ctx, ctx.method = .comb → Yields E w (.start ctx c) (enum E.ignoreWs c) := by
  induction h with
  | @lit s m hf =>
    intro ctx hm
    refine .cons (NextG.of_step (Ev.of fun n => ?_)) Yields.done
    simp only [stepG, hm]; rfl
  | @seq toks sep m hf hp hne ih =>
    intro ctx hm
    have hy : ∀ c ∈ toks, Yields E w (.start ctx c) (enum E.ignoreWs c) := fun c hc => ih c hc ctx hm
    have hv : ctx.withVars [] = ctx := rfl
    have hsub : ∀ c ∈ toks.filter (fun c => c.method ≠ some .comb), c ∈ toks :=
      fun c hc => (List.mem_filter.1 hc).1
    obtain ⟨coll, hcoll⟩ := firstValues_plain (E := E) (ws := E.ignoreWs) (ctx := ctx) (w := w)
      (cs := toks.filter (fun c => c.method ≠ some .comb)) (fun c hc => hy c (hsub c hc))
      (fun c hc => hne c (hsub c hc) (by simpa using (List.mem_filter.1 hc).2))
    have hsent : Plain E.ignoreWs sentinel := .lit (Or.inr rfl)
    have hsy : Yields E w (.start ctx sentinel) (enum E.ignoreWs sentinel) := by
      refine .cons (NextG.of_step (Ev.of fun n => ?_)) Yields.done
      simp only [stepG, sentinel, hm]; rfl
    have hall : ∀ c ∈ sentinel :: toks ++ [sentinel], Plain E.ignoreWs c := by
      intro c hc
      simp only [List.cons_append, List.mem_cons, List.mem_append, List.not_mem_nil, or_false] at hc
      rcases hc with rfl | hc | rfl
      · exact hsent
      · exact hp c hc
      · exact hsent
    have hally : ∀ c ∈ sentinel :: toks ++ [sentinel], Yields E w (.start ctx c) (enum E.ignoreWs c) := by
      intro c hc
      simp only [List.cons_append, List.mem_cons, List.mem_append, List.not_mem_nil, or_false] at hc
      rcases hc with rfl | hc | rfl
      · exact hsy
      · exact hy c hc
      · exact hsy
    have hseq := yields_combSeq (sep := sep) (yieldsS_plain hm (coll := coll) hall hally)
    have hen : (product ((sentinel :: toks ++ [sentinel]).map (enum E.ignoreWs))).map (joined sep) =
        enum E.ignoreWs (.seq toks sep m) := by
      have : (sentinel :: toks ++ [sentinel]).map (enum E.ignoreWs) =
          [[]] :: toks.map (enum E.ignoreWs) ++ [[[]]] := by
        simp [sentinel, enum]
      rw [this, product_pad, enum, enumL_eq, List.map_map]; rfl
    rw [hen] at hseq
    refine yields_start (by simp) ?_ hseq
    refine hcoll.mp fun n hn => ?_
    simp only [startG]
    rw [M.bind_of_ok (assigns_plain hp)]
    simp only [hm, hv]
    rw [M.bind_of_ok (a := coll) (w' := w)]
    · rfl
    · simp only [Recs.mkColl]
      rw [mkGens_plain (fun c hc => hp c (hsub c hc)) hm]
      exact hn
  | @variant opts lo hi sep m hf hp ih =>
    intro ctx hm
    have hall : ∀ c ∈ opts.map (·.1), Plain E.ignoreWs c := by
      intro c hc
      obtain ⟨o, ho, rfl⟩ := List.mem_map.1 hc
      exact hp o ho
    have hy : ∀ c ∈ opts.map (·.1), Yields E w (.start ctx c) (enum E.ignoreWs c) := by
      intro c hc
      obtain ⟨o, ho, rfl⟩ := List.mem_map.1 hc
      exact ih o ho ctx hm
    have hv : opts ≠ [] → Yields E w (.combVar ctx sep [] (boundCombos (opts.map (·.1))
        (adjustBounds opts.length lo hi).1 (adjustBounds opts.length lo hi).2))
        (enum E.ignoreWs (.variant opts lo hi sep m)) := by
      intro hne
      have := yields_combVar (E := E) (ctx := ctx) (sep := sep) (w := w)
        (tup := fun combo => product (combo.map (enum E.ignoreWs)))
        (pend := boundCombos (opts.map (·.1)) (adjustBounds opts.length lo hi).1
          (adjustBounds opts.length lo hi).2) (by
          rintro ⟨b, combo⟩ hmem
          obtain ⟨-, -, hc⟩ := (mem_boundCombos (adjust_nonneg _ _ _)).1 hmem
          obtain ⟨hlen, -, hsub⟩ := mem_getCombos.1 hc
          refine ⟨yieldsP_plain hm (fun c hc => hall c (hsub c hc)) (fun c hc => hy c (hsub c hc)), ?_⟩
          intro t ht
          rw [product_length ht, List.length_map, hlen]) []
      rw [firsts_eq] at this
      have hinj : Function.Injective (fun c : Cmd => (c, enum E.ignoreWs c)) := by
        intro a b h; exact (Prod.mk.inj h).1
      have hlist : (boundCombos (opts.map (·.1)) (adjustBounds opts.length lo hi).1
            (adjustBounds opts.length lo hi).2).flatMap
              (fun p => product (p.2.map (enum E.ignoreWs))) =
          ((sizes opts.length lo hi).flatMap fun k => selections k (enumO E.ignoreWs opts)).flatMap
            fun sel => product (sel.map (·.2)) := by
        rw [enumO_eq, boundCombos_flat]
        simp only [selections_map _ hinj]
        simp only [List.flatMap_assoc, List.flatMap_map, List.map_map, Function.comp_def]
      rw [hlist] at this
      rw [enum, if_neg (by simpa using hne)]
      simpa using this
    match opts, hp, hv with
    | [], _, hv =>
      refine yields_start (by simp) (g := .done) (Ev.of fun n => rfl) ?_
      have : enum E.ignoreWs (.variant [] lo hi sep m) = [] := by simp [enum]
      rw [this]; exact Yields.done
    | [(c, x)], hp, hv =>
      refine yields_start (by simp) (Ev.of fun n => ?_) (hv (by simp))
      have hc := hp (c, x) (by simp)
      cases hc <;> simp only [startG, hm] <;> rfl
    | o1 :: o2 :: os, hp, hv =>
      refine yields_start (by simp) (Ev.of fun n => ?_) (hv (by simp))
      simp only [startG, hm]; rfl
  | @wrap wr i m hf hw hi ihw ihi =>
    intro ctx hm
    obtain ⟨wg, hwg, hwy⟩ := yields_sampleGen_cmd hw hm (ihw ctx hm)
    obtain ⟨ig, hig, hiy⟩ := yields_sampleGen_cmd hi hm (ihi ctx hm)
    have := yields_combWrap (ctx := ctx) (inner := i) hig hiy hwy
    refine yields_start (by simp) (Ev.of fun n => ?_) ?_ (g := .combWrap ctx i wg)
    · simp only [startG, hm, hwg]; rfl
    · rw [enum]
      simpa [List.flatMap_map, Function.comp_def] using this

end Verif
