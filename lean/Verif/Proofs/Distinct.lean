import Verif.Proofs.Sound
import Verif.Proofs.Comb
/-! A combinatorial variant never repeats a selection: invariant of its loop. -/

namespace Verif
open Spec
variable {W : Type} {E : Env W}

theorem collect_squash (E : Env W) (n k : Nat) (g : Gen) (w : W) :
    (collect E (n + 1) k (.squash g) w).1 = ((collect E n k g w).1).map squashWhitespace := by
  induction k generalizing g w with
  | zero => rfl
  | succ k ih =>
    have h : nextG E (n + 1) (.squash g) w =
        (nextG E n g >>= fun o => match o with
          | none => pure none
          | some (v, g') => pure (some (squashWhitespace v, .squash g'))) w := rfl
    unfold collect
    rw [h, M.bind_eq]
    cases hg : nextG E n g w with
    | ok o w' =>
      rcases o with _ | ⟨v, g'⟩
      · rfl
      · simp only [M.pure_eq, List.map_cons, ih]
    | err e w' => rfl
    | fuel => rfl

/-- States of the loop of a combinatorial variant; `B` holds of every number of options still to
be used. -/
inductive CVState (sep : Str) (seen : List (List Str)) (B : Nat → Prop) : Gen → Prop
  | var {ctx pend} : (∀ p ∈ pend, B p.1) → CVState sep seen B (.combVar ctx sep seen pend)
  | inner {ctx pend b fr} : (∀ p ∈ pend, B p.1) → B b →
      CVState sep seen B (.combVarIn ctx sep seen pend b fr)

theorem CVState.next {sep : Str} {B : Nat → Prop} (n : Nat) : ∀ {seen : List (List Str)} {g : Gen},
    CVState sep seen B g → ∀ {w w' : W} {v : Str} {g' : Gen},
    (recs E n).G g w = .ok (some (v, g')) w' →
    ∃ d, v = joined sep d ∧ d.Nodup ∧ d ∉ seen ∧ B d.length ∧ CVState sep (d :: seen) B g' := by
  induction n with
  | zero => intro seen g _ w w' v g' h; cases h
  | succ n ih =>
    intro seen g hg w w' v g' h
    cases hg with
    | @var ctx pend hp =>
      cases pend with
      | nil =>
        simp only [recs, stepG, M.pure_eq] at h
        cases h
      | cons p pend =>
        obtain ⟨b, combo⟩ := p
        exact ih (.inner (fun p hp' => hp p (by simp [hp'])) (hp (b, combo) (by simp))) h
    | @inner ctx pend b fr hp hb =>
      simp only [recs, stepG] at h
      obtain ⟨o, w1, h1, h2⟩ := M.bind_ok.1 h
      rcases o with _ | ⟨vs, fr'⟩
      · exact ih (.var hp) h2
      · dsimp only at h2
        by_cases hc : (dedupe (fun s : Str => s) vs).length = b ∧
            ¬ seen.contains (dedupe (fun s : Str => s) vs) = true
        · rw [if_pos hc] at h2
          cases h2
          have hnd : (dedupe (fun s : Str => s) vs).Nodup := by
            have : ∀ (l seen : List Str), (dedupeAux (fun s : Str => s) seen l).Nodup ∧
                ∀ x ∈ dedupeAux (fun s : Str => s) seen l, x ∉ seen := by
              intro l
              induction l with
              | nil => intro seen; simp [dedupeAux]
              | cons a l ihl =>
                intro seen
                unfold dedupeAux
                split
                · exact ihl seen
                · rename_i hna
                  obtain ⟨h3, h4⟩ := ihl (a :: seen)
                  refine ⟨List.nodup_cons.2 ⟨fun ha => h4 a ha (by simp), h3⟩, ?_⟩
                  intro x hx
                  rcases List.mem_cons.1 hx with rfl | hx
                  · simpa using hna
                  · exact fun hs => h4 x hx (by simp [hs])
            exact (this vs []).1
          refine ⟨_, rfl, hnd, by simpa using hc.2, by rw [hc.1]; exact hb, ?_⟩
          exact .inner hp hb
        · rw [if_neg hc] at h2
          exact ih (.inner hp hb) h2

theorem CVState.collect {sep : Str} {B : Nat → Prop} (n : Nat) (k : Nat) :
    ∀ {seen : List (List Str)} {g : Gen}, CVState sep seen B g → ∀ (w : W),
    ∃ ds : List (List Str), (collect E n k g w).1 = ds.map (joined sep) ∧ ds.Nodup ∧
      ∀ d ∈ ds, d ∉ seen ∧ d.Nodup ∧ B d.length := by
  induction k with
  | zero => intro seen g _ w; exact ⟨[], rfl, by simp, by simp⟩
  | succ k ih =>
    intro seen g hg w
    unfold Verif.collect
    cases hn : nextG E n g w with
    | ok o w' =>
      rcases o with _ | ⟨v, g'⟩
      · exact ⟨[], rfl, by simp, by simp⟩
      · obtain ⟨d, rfl, h1, h2, h3, h4⟩ := hg.next n hn
        obtain ⟨ds, h5, h6, h7⟩ := ih h4 w'
        refine ⟨d :: ds, by simp [h5], List.nodup_cons.2 ⟨fun hd => (h7 d hd).1 (by simp), h6⟩, ?_⟩
        intro d' hd'
        rcases List.mem_cons.1 hd' with rfl | hd'
        · exact ⟨h2, h1, h3⟩
        · exact ⟨fun hs => (h7 d' hd').1 (by simp [hs]), (h7 d' hd').2⟩
    | err e w' => exact ⟨[], rfl, by simp, by simp⟩
    | fuel => exact ⟨[], rfl, by simp, by simp⟩

/-- The first `next` of a combinatorial variant leads into its loop. -/
theorem cvStart_next {ctx : Ctx} (hm : ctx.method = .comb) (n : Nat) :
    ∀ {opts : List (Cmd × Rat)} {lo hi : Int} {sep : Str} {m : Option Method} {w w' : W} {v : Str}
      {g' : Gen}, (recs E n).G (.start ctx (.variant opts lo hi sep m)) w = .ok (some (v, g')) w' →
    ∃ N : Nat, (¬ SingleWild opts → N = opts.length) ∧
    ∃ d, v = joined sep d ∧ d.Nodup ∧ InBounds N lo hi d.length ∧
      CVState sep [d] (InBounds N lo hi) g' := by
  induction n with
  | zero => intro opts lo hi sep m w w' v g' h; cases h
  | succ n ih =>
    intro opts lo hi sep m w w' v g' h
    have hgen : ∀ cs : List Cmd, ∀ p ∈ boundCombos cs (adjustBounds opts.length lo hi).1
        (adjustBounds opts.length lo hi).2, InBounds opts.length lo hi p.1 := by
      rintro cs ⟨b, c⟩ hp
      obtain ⟨h1, h2, -⟩ := (mem_boundCombos (adjust_nonneg _ _ _)).1 hp
      exact inBounds_of_adjust h1 h2
    match opts, h, hgen with
    | [], h, _ =>
      simp only [recs, stepG, startG, M.mpure_bind] at h
      cases n <;> simp [recs, stepG] at h
    | [(c, x)], h, hgen =>
      by_cases hs : SingleWild [(c, x)]
      · obtain ⟨p, m', v', x', he⟩ := hs
        cases he
        simp only [recs, stepG, startG] at h
        obtain ⟨g, w1, h1, h2⟩ := M.bind_ok.1 h
        obtain ⟨cv, w2, h3, h4⟩ := M.bind_ok.1 h1
        cases h4
        unfold Recs.wildcardToVariant at h3
        obtain ⟨wc, w3, h5, h6⟩ := M.bind_ok.1 h3
        obtain ⟨items, w4, h7, h8⟩ := M.bind_ok.1 h6
        obtain ⟨os, w5, h9, h10⟩ := M.bind_ok.1 h8
        cases h10
        obtain ⟨N, -, d, e1, e2, e3, e4⟩ := ih h2
        refine ⟨min N items.length, fun hc => absurd ⟨p, m', v', x, rfl⟩ hc, d, e1, e2, ?_, ?_⟩
        · simp only [InBounds, normBounds] at e3 ⊢; omega
        · have hB : ∀ k, InBounds N (normBounds (min lo items.length) (min hi items.length)).1
              (normBounds (min lo items.length) (min hi items.length)).2 k →
              InBounds (min N items.length) lo hi k := by
            intro k hk; simp only [InBounds, normBounds] at hk ⊢; omega
          cases e4 with
          | var hp => exact .var fun p hp' => hB _ (hp p hp')
          | inner hp hb => exact .inner (fun p hp' => hB _ (hp p hp')) (hB _ hb)
      · refine ⟨1, fun _ => rfl, ?_⟩
        have h' : (recs E n).G (.combVar ctx sep [] (boundCombos [c] (adjustBounds 1 lo hi).1
            (adjustBounds 1 lo hi).2)) w = .ok (some (v, g')) w' := by
          simp only [recs, stepG] at h
          cases c with
          | wild p m v => exact absurd ⟨p, m, v, x, rfl⟩ hs
          | _ => simp only [startG, hm] at h; exact h
        obtain ⟨d, e1, e2, -, e3, e4⟩ := (CVState.var (sep := sep) (seen := []) (hgen [c])).next n h'
        exact ⟨d, e1, e2, e3, e4⟩
    | o1 :: o2 :: os, h, hgen =>
      refine ⟨_, fun _ => rfl, ?_⟩
      simp only [recs, stepG, startG, hm, M.mpure_bind] at h
      obtain ⟨d, e1, e2, -, e3, e4⟩ :=
        (CVState.var (sep := sep) (seen := []) (hgen ((o1 :: o2 :: os).map (·.1)))).next n h
      exact ⟨d, e1, e2, e3, e4⟩

theorem cvStart_collect {ctx : Ctx} (hm : ctx.method = .comb) (n k : Nat)
    (opts : List (Cmd × Rat)) (lo hi : Int) (sep : Str) (m : Option Method) (w : W) :
    ∃ N : Nat, (¬ SingleWild opts → N = opts.length) ∧ ∃ ds : List (List Str),
      (collect E n k (.start ctx (.variant opts lo hi sep m)) w).1 = ds.map (joined sep) ∧ ds.Nodup ∧
      ∀ d ∈ ds, d.Nodup ∧ InBounds N lo hi d.length := by
  cases k with
  | zero => exact ⟨opts.length, fun _ => rfl, [], rfl, by simp, by simp⟩
  | succ k =>
    unfold Verif.collect
    cases hn : nextG E n (.start ctx (.variant opts lo hi sep m)) w with
    | ok o w' =>
      rcases o with _ | ⟨v, g'⟩
      · exact ⟨opts.length, fun _ => rfl, [], rfl, by simp, by simp⟩
      · obtain ⟨N, hN, d, rfl, h1, h3, h4⟩ := cvStart_next hm n hn
        obtain ⟨ds, h5, h6, h7⟩ := h4.collect n k (E := E) w'
        refine ⟨N, hN, d :: ds, by simp [h5],
          List.nodup_cons.2 ⟨fun hd => (h7 d hd).1 (by simp), h6⟩, ?_⟩
        intro d' hd'
        rcases List.mem_cons.1 hd' with rfl | hd'
        · exact ⟨h1, h3⟩
        · exact (h7 d' hd').2
    | err e w' => exact ⟨opts.length, fun _ => rfl, [], rfl, by simp, by simp⟩
    | fuel => exact ⟨opts.length, fun _ => rfl, [], rfl, by simp, by simp⟩

end Verif
