import Verif.Spec.Wider
import Verif.Proofs.SameTexts
import Mathlib.Data.List.Forall2
import Mathlib.Data.List.Perm.Basic
import Mathlib.Algebra.Order.Ring.Rat
/-! What a command could give, a wider one could give. -/

namespace Verif
open Spec Props
variable {W : Type} {E E' : Env W}

theorem Spec.WiderAll.forall {l l' : List Cmd} : WiderAll E E' l l' ↔ List.Forall₂ (Wider E E') l l' := by
  constructor
  · intro h
    induction l generalizing l' with
    | nil => cases h; exact .nil
    | cons c l ih => cases h with | cons h1 h2 => exact .cons h1 (ih h2)
  · intro h
    induction h with
    | nil => exact .nil
    | cons h1 _ ih => exact .cons h1 ih

theorem Spec.Wider.method_eq {c c' : Cmd} (h : Wider E E' c c') : c'.method = c.method := by
  cases h <;> rfl

theorem Spec.WiderOptions.length_le {l l' : List (Cmd × Rat)} (h : WiderOptions E E' l l') : l.length ≤ l'.length := by
  induction l' generalizing l with
  | nil => cases h; simp
  | cons p l' ih =>
    cases h with
    | keep _ _ _ h => simpa using ih h
    | add _ h => exact Nat.le_trans (ih h) (by simp)

theorem Spec.Wider.truthy_eq {c c' : Cmd} (h : Wider E E' c c') : c'.truthy = c.truthy := by
  cases h with
  | seq h =>
    cases h <;> rfl
  | variant _ h hn =>
    have := h.length_le
    simp only [Cmd.truthy]
    congr 1
    rw [Bool.eq_iff_iff, List.isEmpty_iff, List.isEmpty_iff]
    constructor
    · intro e
      rw [e] at this
      exact List.length_eq_zero_iff.1 (Nat.le_zero.1 this)
    · intro e
      rcases hn with hn | hn
      · rw [e] at hn
        exact List.length_eq_zero_iff.1 hn
      · exact absurd e hn.1
  | _ => rfl

theorem Spec.WiderVars.lookup {l l' : List (Str × Cmd)} (h : WiderVars E E' l l') (n : Str) :
    (l.lookup n = none ∧ l'.lookup n = none) ∨ ∃ c c', l.lookup n = some c ∧ l'.lookup n = some c' ∧ Wider E E' c c' := by
  induction l generalizing l' with
  | nil => cases h; exact .inl ⟨rfl, rfl⟩
  | cons p l ih =>
    cases h with
    | @cons m c c' _ l' h1 h2 =>
      simp only [List.lookup_cons]
      by_cases e : (n == m) = true
      · simp only [e]
        exact .inr ⟨_, _, rfl, rfl, h1⟩
      · simp only [e]
        exact ih h2

theorem Spec.WiderVars.append {l l' k k' : List (Str × Cmd)} (h : WiderVars E E' l l') (h' : WiderVars E E' k k') :
    WiderVars E E' (l ++ k) (l' ++ k') := by
  induction l generalizing l' with
  | nil => cases h; exact h'
  | cons p l ih => cases h with | cons h1 h2 => exact .cons h1 (ih h2)

theorem resolves_wider (hM : More E E') {vars vars' : List (Str × Cmd)} (hv : WiderVars E E' vars vars') {n : Str}
    {d : Option Cmd} {c : Cmd} (h : Resolves E.unknown vars n d c) {x : Cmd} (hx : Wider E E' (.access n d) x) :
    ∃ d' c', x = .access n d' ∧ Resolves E'.unknown vars' n d' c' ∧ Wider E E' c c' := by
  have hl := hv.lookup n
  cases h with
  | var h1 h2 =>
    rcases hl with ⟨e, -⟩ | ⟨a, b, e1, e2, hw⟩
    · rw [e] at h1; cases h1
    · rw [e1] at h1
      cases h1
      cases hx with
      | access => exact ⟨_, _, rfl, .var e2 (hw.truthy_eq.trans h2), hw⟩
      | accessDefault => exact ⟨_, _, rfl, .var e2 (hw.truthy_eq.trans h2), hw⟩
  | default h1 h2 =>
    rcases hl with ⟨-, e⟩ | ⟨a, b, e1, -⟩
    · cases hx with
      | accessDefault hd => exact ⟨_, _, rfl, .default e (hd.truthy_eq.trans h2), hd⟩
    · rw [e1] at h1; cases h1
  | unknownEmpty h1 h2 h3 =>
    obtain ⟨u', hu, hw'⟩ := hM.unknown _ h3
    rcases hl with ⟨e, -⟩ | ⟨a, b, e1, e2, hw⟩
    · rw [e] at h1; cases h1
    · rw [e1] at h1
      cases h1
      cases hx with
      | access => exact ⟨_, _, rfl, .unknownEmpty e2 (hw.truthy_eq.trans h2) hu, hw'⟩
      | accessDefault => exact ⟨_, _, rfl, .unknownEmpty e2 (hw.truthy_eq.trans h2) hu, hw'⟩
  | unknownEmptyDefault h1 h2 h3 =>
    obtain ⟨u', hu, hw'⟩ := hM.unknown _ h3
    rcases hl with ⟨-, e⟩ | ⟨a, b, e1, -⟩
    · cases hx with
      | accessDefault hd => exact ⟨_, _, rfl, .unknownEmptyDefault e (hd.truthy_eq.trans h2) hu, hw'⟩
    · rw [e1] at h1; cases h1
  | unknown h1 h3 =>
    obtain ⟨u', hu, hw'⟩ := hM.unknown _ h3
    rcases hl with ⟨-, e⟩ | ⟨a, b, e1, -⟩
    · cases hx with
      | access => exact ⟨_, _, rfl, .unknown e hu, hw'⟩
    · rw [e1] at h1; cases h1

theorem Spec.WiderPath.prompt {p p' : Prompt} (h : WiderPath E E' p p') : WiderPrompt E E' p p' := by
  cases h with
  | text e h => exact .text ⟨id, fun c hc => ⟨c, e.trans hc, h c hc⟩⟩
  | cmd h => exact .cmd h

theorem Spec.WiderOptions.sublist {l l' : List (Cmd × Rat)} (h : WiderOptions E E' l l') {cs : List Cmd}
    (hs : cs.Sublist (l.map (·.1))) : ∃ cs', cs'.Sublist (l'.map (·.1)) ∧ List.Forall₂ (Wider E E') cs cs' := by
  induction l' generalizing l cs with
  | nil =>
    cases h
    cases hs
    exact ⟨[], .slnil, .nil⟩
  | cons p l' ih =>
    cases h with
    | keep hc _ _ h =>
      cases hs with
      | cons _ hs =>
        obtain ⟨cs', h1, h2⟩ := ih h hs
        exact ⟨cs', h1.cons _, h2⟩
      | cons_cons _ hs =>
        obtain ⟨cs', h1, h2⟩ := ih h hs
        exact ⟨_ :: cs', h1.cons_cons _, .cons hc h2⟩
    | add _ h =>
      obtain ⟨cs', h1, h2⟩ := ih h hs
      exact ⟨cs', h1.cons _, h2⟩

theorem Spec.WiderOptions.subperm {l l' : List (Cmd × Rat)} (h : WiderOptions E E' l l') {cs : List Cmd}
    (hs : cs.Subperm (l.map (·.1))) : ∃ cs', cs'.Subperm (l'.map (·.1)) ∧ WiderAll E E' cs cs' := by
  obtain ⟨k, hk, hs⟩ := hs
  obtain ⟨k', h1, h2⟩ := h.sublist hs
  obtain ⟨cs', h3, h4⟩ := List.perm_comp_forall₂ hk.symm h2
  exact ⟨cs', ⟨k', h4.symm, h1⟩, WiderAll.forall.2 h3⟩

theorem Spec.WiderOptions.positive {l l' : List (Cmd × Rat)} (h : WiderOptions E E' l l') (hp : ∀ p ∈ l, 0 < p.2) :
    ∀ p ∈ l', 0 < p.2 := by
  induction l' generalizing l with
  | nil => simp
  | cons p l' ih =>
    cases h with
    | keep _ h1 _ h =>
      exact List.forall_mem_cons.2 ⟨h1 (hp (_, _) (List.mem_cons_self ..)), ih h fun p hp' => hp p (by simp [hp'])⟩
    | add h1 h => exact List.forall_mem_cons.2 ⟨h1, ih h hp⟩

theorem Spec.WiderOptions.nonneg {l l' : List (Cmd × Rat)} (h : WiderOptions E E' l l') : ∀ p ∈ l', 0 ≤ p.2 := by
  induction l' generalizing l with
  | nil => simp
  | cons p l' ih =>
    cases h with
    | keep _ _ h1 h => exact List.forall_mem_cons.2 ⟨h1, ih h⟩
    | add h1 h => exact List.forall_mem_cons.2 ⟨le_of_lt h1, ih h⟩

theorem Spec.WiderOptions.mem {l l' : List (Cmd × Rat)} (h : WiderOptions E E' l l') {c : Cmd} {q : Rat} (hm : (c, q) ∈ l)
    (hq : 0 < q) : ∃ c' q', (c', q') ∈ l' ∧ Wider E E' c c' ∧ 0 < q' := by
  induction l' generalizing l with
  | nil => cases h; simp at hm
  | cons p l' ih =>
    cases h with
    | keep h0 h1 _ h =>
      rcases List.mem_cons.1 hm with e | hm
      · cases e
        exact ⟨_, _, by simp, h0, h1 hq⟩
      · obtain ⟨c', q', h2, h3⟩ := ih h hm
        exact ⟨c', q', by simp [h2], h3⟩
    | add _ h =>
      obtain ⟨c', q', h2, h3⟩ := ih h hm
      exact ⟨c', q', by simp [h2], h3⟩

theorem inBounds_more {n n' : Nat} {lo hi : Int} {k : Nat} (h : InBounds n lo hi k) (hn : n ≤ n')
    (hb : n' = n ∨ lo ≤ n ∧ hi ≤ n) : InBounds n' lo hi k := by
  unfold InBounds at *
  rcases hb with rfl | ⟨h1, h2⟩
  · exact h
  · omega

theorem Spec.Wider.not_lit {c c' : Cmd} (h : Wider E E' c c') (hc : ∀ s m, c ≠ .lit s m) : ∀ s m, c' ≠ .lit s m := by
  cases h with
  | lit => exact absurd rfl (hc _ _)
  | _ => simp

theorem Spec.Wider.not_assign {c c' : Cmd} (h : Wider E E' c c') (hc : ∀ n v i o, c ≠ .assign n v i o) :
    ∀ n v i o, c' ≠ .assign n v i o := by
  cases h with
  | assign => exact absurd rfl (hc _ _ _ _)
  | _ => simp

mutual
theorem could_wider (hM : More E E') {vars vars' : List (Str × Cmd)} (hv : WiderVars E E' vars vars') {being : List Str}
    {c c' : Cmd} {s : Str} (h : Could E vars being c s) (hc : Wider E E' c c') : Could E' vars' being c' s := by
  match h with
  | .cmd hm hin => exact .cmd (by rw [hc.method_eq]; exact hm) (couldIn_wider hM hv hin hc)
  | .access hr hb h' =>
    obtain ⟨d', x, rfl, hr', hw⟩ := resolves_wider hM hv hr hc
    exact .access hr' hb (could_wider hM hv h' hw)
theorem couldIn_wider (hM : More E E') {vars vars' : List (Str × Cmd)} (hv : WiderVars E E' vars vars') {being : List Str}
    {c c' : Cmd} {s : Str} (h : CouldIn E vars being c s) (hc : Wider E E' c c') : CouldIn E' vars' being c' s := by
  match h with
  | .lit => cases hc; exact .lit
  | .seq (sep := sep) (m := m) (strs := strs) ha hall =>
    have f := fun t2 hv2 cs2 => couldAll_wider hM (vars' := t2) hv2 hall (cs' := cs2)
    have g := fun toks2 => couldAssign_wider hM hv ha (toks2 := toks2)
    cases hc with
    | seq ht =>
      obtain ⟨t2, new2, h1, h2, h3⟩ := g _ ht
      exact .seq h1 (f _ (h3.append hv) _ h2)
  | .variant (cs := cs) h2 hmax hpos hsub hin hall =>
    have f := fun cs2 => couldAll_wider hM hv hall (cs' := cs2)
    cases hc with
    | variant _ ho hn =>
      obtain ⟨cs', h3, h4⟩ := ho.subperm hsub
      have hle := ho.length_le
      have hlen : cs'.length = cs.length := (WiderAll.forall.1 h4).length_eq.symm
      refine .variant (h2.trans hle) hmax (ho.positive hpos) h3 ?_ (f _ h4)
      rw [hlen]
      exact inBounds_more hin hle (hn.imp id fun h => ⟨h.2.1, h.2.2.1⟩)
    | lone => simp at h2
  | .variantOne h2 hnn hmem hwt hin h' =>
    have f := fun c2 => could_wider hM hv h' (c' := c2)
    cases hc with
    | variant _ ho hn =>
      have hle := ho.length_le
      obtain ⟨c2, q2, h3, h4, h5⟩ := ho.mem hmem hwt
      exact .variantOne (h2.trans hle) ho.nonneg h3 h5 (inBounds_more hin hle (hn.imp id fun h => ⟨h.2.1, h.2.2.1⟩)) (f _ h4)
    | lone => simp at h2
  | .variantSingle (c := c) (wt := wt) hs h' =>
    have f := fun c2 => could_wider hM hv h' (c' := c2)
    cases hc with
    | @variant _ opts' _ _ _ _ hsw ho hn =>
      have hle := ho.length_le
      by_cases he : opts'.length = 1
      · obtain ⟨⟨c2, q2⟩, rfl⟩ := List.length_eq_one_iff.1 he
        have hw : Wider E E' c c2 := by
          cases ho with
          | keep h1 _ _ _ => exact h1
          | add _ h => cases h
        refine .variantSingle ?_ (f _ hw)
        rintro ⟨p, m, v, w, e⟩
        cases e
        cases hw with
        | wild => exact hsw ⟨_, _, _, _, rfl⟩
      · rcases hn with hn | ⟨-, h1, h2, h3⟩
        · exact absurd (hn.trans (by simp)) he
        · obtain ⟨rfl, rfl, hp⟩ := h3 rfl
          obtain ⟨c2, q2, h4, h5, h6⟩ := ho.mem (c := c) (q := wt) (by simp) (hp (c, wt) (by simp))
          have hle' : 2 ≤ opts'.length := by
            simp only [List.length_singleton] at hle
            omega
          refine .variantOne hle' ho.nonneg h4 h6 ?_ (f _ h5)
          unfold InBounds
          omega
    | lone => exact absurd ⟨_, _, _, _, rfl⟩ hs
  | .variantWild h1 h2 h3 h4 =>
    have f := fun p2 => couldPrompt_wider hM hv h1 (p' := p2)
    have g := fun c2 => couldIn_wider hM hv h4 (c' := c2)
    cases hc with
    | variant hsw _ _ => exact absurd ⟨_, _, _, _, rfl⟩ hsw
    | lone F G hpath hF hG =>
      obtain ⟨a, b⟩ := hF _ _ _ _ _ h1 h2 h3
      exact .variantWild (f _ hpath.prompt) a b (g _ (hG _ _ _ _ _ h1 h2 h3))
  | .wild (items := items) (item := item) hp hg hnn hi hpos h' =>
    have f := fun p2 => couldPrompt_wider hM hv hp (p' := p2)
    have g := fun vars2 hv2 p2 => couldPrompt_wider hM (vars' := vars2) hv2 h' (p' := p2)
    cases hc with
    | wild hpath hv2 =>
      obtain ⟨items', hg', hnn', hval⟩ := hM.values _ _ hg (List.ne_nil_of_mem hi)
      obtain ⟨i', hi', hpos', ht⟩ := hval item hi hpos
      exact .wild (f _ hpath.prompt) hg' hnn' hi' hpos' (g _ (hv2.append hv) _ (.text ht))
  | .wildMissing hp hg =>
    have f := fun p2 => couldPrompt_wider hM hv hp (p' := p2)
    cases hc with
    | wild hpath hv2 =>
      have hf := f _ hpath.prompt
      cases hpath with
      | text e h =>
        rw [← hM.toWildcard]
        exact .wildMissing hf (hM.missing _ hg)
  | .wildMissingCmd hp hg hp' =>
    have f := fun p2 => couldPrompt_wider hM hv hp (p' := p2)
    have g := fun vars2 hv2 p2 => couldPrompt_wider hM (vars' := vars2) hv2 hp' (p' := p2)
    cases hc with
    | wild hpath hv2 =>
      have hf := f _ hpath.prompt
      have hg' := g _ (hv2.append hv) _ hpath.prompt
      cases hpath with
      | cmd h =>
        rw [← hM.toWildcard]
        exact .wildMissingCmd hf (hM.missing _ hg) hg'
  | .wrap hw hi =>
    have f := fun c2 => could_wider hM hv hw (c' := c2)
    have g := fun c2 => could_wider hM hv hi (c' := c2)
    cases hc with
    | wrap h1 h2 => exact .wrap (f _ h1) (g _ h2)
theorem couldAll_wider (hM : More E E') {vars vars' : List (Str × Cmd)} (hv : WiderVars E E' vars vars') {being : List Str}
    {cs cs' : List Cmd} {strs : List Str} (h : CouldAll E vars being cs strs) (hc : WiderAll E E' cs cs') :
    CouldAll E' vars' being cs' strs := by
  match h with
  | .nil => cases hc; exact .nil
  | .cons h1 h2 =>
    have f := fun c2 => could_wider hM hv h1 (c' := c2)
    have g := fun c2 => couldAll_wider hM hv h2 (cs' := c2)
    cases hc with
    | cons a b => exact .cons (f _ a) (g _ b)
theorem couldPrompt_wider (hM : More E E') {vars vars' : List (Str × Cmd)} (hv : WiderVars E E' vars vars') {being : List Str}
    {p p' : Prompt} {s : Str} (h : CouldPrompt E vars being p s) (hp : WiderPrompt E E' p p') :
    CouldPrompt E' vars' being p' s := by
  match h with
  | .text hne hparse h' =>
    have f := fun c2 => could_wider hM hv h' (c' := c2)
    cases hp with
    | text ht =>
      obtain ⟨c2, h1, h2⟩ := ht.2 _ hparse
      rw [← hM.ignoreWs]
      exact .text (ht.1 hne) h1 (f _ h2)
  | .cmd ht h' =>
    have f := fun c2 => could_wider hM hv h' (c' := c2)
    cases hp with
    | cmd hw =>
      rw [← hM.ignoreWs]
      exact .cmd (hw.truthy_eq.trans ht) (f _ hw)
theorem couldAssign_wider (hM : More E E') {vars vars' : List (Str × Cmd)} (hv : WiderVars E E' vars vars') {being : List Str}
    {toks toks2 t : List Cmd} {new : List (Str × Cmd)} (h : CouldAssign E vars being toks t new) (hc : WiderAll E E' toks toks2) :
    ∃ t2 new2, CouldAssign E' vars' being toks2 t2 new2 ∧ WiderAll E E' t t2 ∧ WiderVars E E' new new2 := by
  match h with
  | .nil => cases hc; exact ⟨[], [], .nil, .nil, .nil⟩
  | .tok hna h' =>
    have g := fun l => couldAssign_wider hM hv h' (toks2 := l)
    cases hc with
    | cons a b =>
      obtain ⟨t2, new2, h1, h2, h3⟩ := g _ b
      exact ⟨_, _, .tok (a.not_assign hna) h1, .cons a h2, h3⟩
  | .keep hl h' =>
    have g := fun l => couldAssign_wider hM hv h' (toks2 := l)
    cases hc with
    | cons a b =>
      obtain ⟨t2, new2, h1, h2, h3⟩ := g _ b
      cases a with
      | assign a =>
        rcases hv.lookup _ with ⟨e, -⟩ | ⟨x, y, e1, e2, hw⟩
        · rw [e] at hl; cases hl
        · rw [e1] at hl
          cases hl
          exact ⟨_, _, .keep e2 h1, h2, h3.append (.cons hw .nil)⟩
  | .plain (n := n) ho h' =>
    have g := fun l => couldAssign_wider hM hv h' (toks2 := l)
    cases hc with
    | cons a b =>
      obtain ⟨t2, new2, h1, h2, h3⟩ := g _ b
      cases a with
      | assign a =>
        have ho' : _ ∨ vars'.lookup n = none := ho.imp id fun e => by
          rcases hv.lookup n with ⟨-, e'⟩ | ⟨x, y, e1, -⟩
          · exact e'
          · rw [e1] at e; cases e
        exact ⟨_, _, .plain ho' h1, h2, h3.append (.cons a .nil)⟩
  | .literal (n := n) ho h' =>
    have g := fun l => couldAssign_wider hM hv h' (toks2 := l)
    cases hc with
    | cons a b =>
      obtain ⟨t2, new2, h1, h2, h3⟩ := g _ b
      cases a with
      | assign a =>
        have ho' : _ ∨ vars'.lookup n = none := ho.imp id fun e => by
          rcases hv.lookup n with ⟨-, e'⟩ | ⟨x, y, e1, -⟩
          · exact e'
          · rw [e1] at e; cases e
        cases a with
        | lit => exact ⟨_, _, .literal ho' h1, h2, h3.append (.cons .lit .nil)⟩
  | .immediate (n := n) ho hlit hcould h' =>
    have f := fun c2 => could_wider hM hv hcould (c' := c2)
    have g := fun l => couldAssign_wider hM hv h' (toks2 := l)
    cases hc with
    | cons a b =>
      obtain ⟨t2, new2, h1, h2, h3⟩ := g _ b
      cases a with
      | assign a =>
        have ho' : _ ∨ vars'.lookup n = none := ho.imp id fun e => by
          rcases hv.lookup n with ⟨-, e'⟩ | ⟨x, y, e1, -⟩
          · exact e'
          · rw [e1] at e; cases e
        exact ⟨_, _, .immediate ho' (a.not_lit hlit) (f _ a) h1, h2, h3.append (.cons .lit .nil)⟩
end

theorem iterate_sublist {l l' : List Item} (h : l.Sublist l') : (iterateWeighted l).Sublist (iterateWeighted l') := by
  unfold iterateWeighted
  induction h with
  | slnil => simp
  | cons a _ ih => simp only [List.flatMap_cons]; exact ih.trans (List.sublist_append_right ..)
  | cons_cons a _ ih => simp only [List.flatMap_cons]; exact (List.Sublist.refl _).append ih

theorem iterate_length {l : List Item} (h : ∀ i ∈ l, 1 ≤ i.weight.getD 1) : l.length ≤ (iterateWeighted l).length := by
  unfold iterateWeighted
  induction l with
  | nil => simp
  | cons a l ih =>
    have h1 : (1 : Int) ≤ a.w.floor := Rat.le_floor_iff.2 (h a (by simp))
    have := ih fun i hi => h i (by simp [hi])
    simp only [List.flatMap_cons, List.length_append, List.length_cons, List.length_replicate]
    omega

theorem parsesAll_length {l : List Str} {cs : List Cmd} (h : ParsesAll E l cs) : cs.length = l.length := by
  induction h with
  | nil => rfl
  | cons _ _ ih => simp [ih]

theorem parsesAll_exists {l : List Str} (h : ∀ s ∈ l, ∃ c, E.parse s = .ok c) : ∃ cs, ParsesAll E l cs := by
  induction l with
  | nil => exact ⟨[], .nil⟩
  | cons s l ih =>
    obtain ⟨c, hc⟩ := h s (by simp)
    obtain ⟨cs, hcs⟩ := ih fun s hs => h s (by simp [hs])
    exact ⟨c :: cs, .cons hc hcs⟩

theorem parsesAll_wider (he : E'.parse = E.parse) {l l' : List Str} (h : l.Sublist l') {cs cs' : List Cmd}
    (h1 : ParsesAll E l cs) (h2 : ParsesAll E' l' cs') (hw : ∀ s ∈ l, ∀ c, E.parse s = .ok c → Wider E E' c c) :
    WiderOptions E E' (cs.map fun c => (c, 1)) (cs'.map fun c => (c, 1)) := by
  induction h generalizing cs cs' with
  | slnil => cases h1; cases h2; exact .nil
  | cons a _ ih =>
    cases h2 with
    | cons h3 h4 => exact .add (by decide) (ih h1 h4 hw)
  | cons_cons a _ ih =>
    cases h1 with
    | cons h5 h6 =>
      cases h2 with
      | cons h3 h4 =>
        rw [he, h5] at h3
        cases h3
        exact .keep (hw _ (by simp) _ h5) id (by decide) (ih h6 h4 fun s hs => hw s (by simp [hs]))

theorem widerAll_self {l : List Cmd} (h : ∀ c ∈ l, Wider E E' c c) : WiderAll E E' l l := by
  induction l with
  | nil => exact .nil
  | cons c l ih => exact .cons (h c (by simp)) (ih fun c hc => h c (by simp [hc]))

theorem widerOptions_self {l : List (Cmd × Rat)} (h : ∀ p ∈ l, Wider E E' p.1 p.1) (h0 : ∀ p ∈ l, 0 ≤ p.2) :
    WiderOptions E E' l l := by
  induction l with
  | nil => exact .nil
  | cons p l ih =>
    exact .keep (h p (by simp)) id (h0 p (by simp)) (ih (fun c hc => h c (by simp [hc])) fun c hc => h0 c (by simp [hc]))

theorem widerVars_self {l : List (Str × Cmd)} (h : ∀ p ∈ l, Wider E E' p.2 p.2) : WiderVars E E' l l := by
  induction l with
  | nil => exact .nil
  | cons p l ih => exact .cons (h p (by simp)) (ih fun c hc => h c (by simp [hc]))

theorem gives_items_eq [Nonempty W] {wc : Str} {a b : List Item} (h : Gives E wc a) (h' : Gives E wc b) : a = b := by
  obtain ⟨w⟩ := ‹Nonempty W›
  have := (h w).symm.trans (h' w)
  cases this
  rfl

theorem settled_wider [Nonempty W] (hM : MoreValues E E') {c : Cmd} (h : Settled E c) : Wider E E' c c := by
  classical
  induction h with
  | lit => exact .lit
  | seq _ ih => exact .seq (widerAll_self ih)
  | variant h1 h2 _ ih => exact .variant h1 (widerOptions_self ih h2) (.inl rfl)
  | @lone path m' v wt sep m lo hi h1 h2 h3 h4 ih1 ih2 ih4 =>
    have hp : WiderPath E E' path path := by
      cases path with
      | inl t => exact .text (by rw [hM.parse]) (fun c hc => ih1 t c rfl hc)
      | inr c => exact .cmd (ih2 c rfl)
    let F : Str → List Item := fun wc => if h : ∃ items', Gives E' wc items' then h.choose else []
    let G : Str → List Cmd → List Cmd := fun wc _ =>
      if h : ∃ cs', ParsesAll E' (iterateWeighted (F wc)) cs' then h.choose else []
    have hF : ∀ wc items', Gives E' wc items' → F wc = items' := by
      intro wc items' hg
      have he : ∃ items', Gives E' wc items' := ⟨_, hg⟩
      simp only [F, he, dite_true]
      exact gives_items_eq he.choose_spec hg
    have key : ∀ vars being wc items cs, CouldPrompt E vars being path wc → Gives E wc items →
        ParsesAll E (iterateWeighted items) cs → ∃ items', Gives E' wc items' ∧ items.Sublist items' ∧ F wc = items' ∧
          ParsesAll E' (iterateWeighted items') (G wc cs) := by
      intro vars being wc items cs hcp hg hpa
      have hne : items ≠ [] := by
        rintro rfl
        have := (h3 _ _ _ _ hcp hg).1
        simp at this
      obtain ⟨items', hg', hsub, -, hok⟩ := hM.values wc items hg hne
      have hFe := hF wc items' hg'
      refine ⟨items', hg', hsub, hFe, ?_⟩
      have he : ∃ cs', ParsesAll E' (iterateWeighted (F wc)) cs' := by
        apply parsesAll_exists
        intro s hs
        rw [hFe] at hs
        simp only [iterateWeighted, List.mem_flatMap] at hs
        obtain ⟨i, hi, hs⟩ := hs
        rw [List.eq_of_mem_replicate hs, hM.parse]
        exact (hok i hi).2.2
      have : G wc cs = he.choose := by simp only [G, he, dite_true]
      rw [this, ← hFe]
      exact he.choose_spec
    refine .lone F G hp ?_ ?_
    · intro vars being wc items cs hcp hg hpa
      obtain ⟨items', hg', -, hFe, hp'⟩ := key vars being wc items cs hcp hg hpa
      rw [hFe]
      exact ⟨hg', hp'⟩
    · intro vars being wc items cs hcp hg hpa
      obtain ⟨items', hg', hsub, hFe, hp'⟩ := key vars being wc items cs hcp hg hpa
      obtain ⟨h5, h6, h7, h8⟩ := h3 _ _ _ _ hcp hg
      have hle := hsub.length_le
      rw [hFe]
      have e1 : min lo (items'.length : Int) = min lo items.length := by omega
      have e2 : min hi (items'.length : Int) = min hi items.length := by omega
      rw [e1, e2]
      have hlen : items.length ≤ cs.length := by
        rw [parsesAll_length hpa]
        exact iterate_length h8
      unfold Cmd.mkVariant normBounds
      refine .variant ?_ (parsesAll_wider hM.parse (iterate_sublist hsub) hpa hp' ?_) (.inr ⟨?_, ?_, ?_, ?_⟩)
      · rintro ⟨p, m, v, w, e⟩
        have := congrArg List.length e
        simp at this
        omega
      · intro s hs c hc
        simp only [iterateWeighted, List.mem_flatMap] at hs
        obtain ⟨i, hi, hs⟩ := hs
        rw [List.eq_of_mem_replicate hs] at hc
        exact ih4 _ _ _ _ i c hcp hg hi hc
      · intro e
        have := congrArg List.length e
        simp only [List.length_map, List.length_nil] at this
        omega
      · simp only [List.length_map]; omega
      · simp only [List.length_map]; omega
      · intro e
        simp only [List.length_map] at e
        omega
  | @wild path m v h1 h2 h3 ih1 ih2 ih3 =>
    refine .wild ?_ (widerVars_self ih3)
    cases path with
    | inl t => exact .text (by rw [hM.parse]) (fun c hc => ih1 t c rfl hc)
    | inr c => exact .cmd (ih2 c rfl)
  | assign _ ih => exact .assign ih
  | @access n d _ ih =>
    cases d with
    | none => exact .access
    | some d => exact .accessDefault (ih d rfl)
  | wrap _ _ ih1 ih2 => exact .wrap ih1 ih2

/-- The environment in which a wildcard without values is an error. -/
def strictEnv (E : Env W) : Env W :=
  { E with getValues := fun wc w => match E.getValues wc w with
      | .ok [] w => .err .os w
      | x => x }

theorem strict_gives {wc : Str} {items : List Item} (h : Gives E wc items) (hne : items ≠ []) :
    Gives (strictEnv E) wc items := by
  intro w
  cases items with
  | nil => exact absurd rfl hne
  | cons i l => simp only [strictEnv, h w]

theorem strict_gave [Nonempty W] {wc : Str} {items : List Item} (h : Gives (strictEnv E) wc items) :
    Gives E wc items ∧ items ≠ [] := by
  have key : ∀ w, E.getValues wc w = .ok items w ∧ items ≠ [] := by
    intro w
    have := h w
    simp only [strictEnv] at this
    split at this
    · cases this
    · next h' =>
      refine ⟨this, ?_⟩
      rintro rfl
      exact h' _ this
  obtain ⟨w⟩ := ‹Nonempty W›
  exact ⟨fun w => (key w).1, (key w).2⟩

theorem parsesAll_env {E₀ : Env W} (he : E₀.parse = E.parse) {l : List Str} {cs : List Cmd} (h : ParsesAll E l cs) :
    ParsesAll E₀ l cs := by
  induction h with
  | nil => exact .nil
  | cons h1 _ ih => exact .cons (by rw [he]; exact h1) ih

theorem readAs_env {E₀ : Env W} (he : E₀.parse = E.parse) {p : Prompt} {c : Cmd} (h : ReadAs E p c) : ReadAs E₀ p c := by
  cases h with
  | text h1 h2 => exact .text h1 (by rw [he]; exact h2)
  | cmd h => exact .cmd h

theorem mkVariant_nil_sameTexts {vars : List (Str × Cmd)} {being : List Str} {lo hi : Int} {sep : Str} {m : Option Method}
    {outs : List Str} : ¬ SameTexts E vars being (Cmd.mkVariant [] lo hi sep m) outs := by
  intro h
  generalize hc : Cmd.mkVariant [] lo hi sep m = c at h
  unfold Cmd.mkVariant at hc
  cases h with
  | one _ _ _ h => exact h (Cmd.variant.inj hc).1.symm
  | several _ _ h => rw [← (Cmd.variant.inj hc).1] at h; simp at h
  | ofValues => exact absurd (Cmd.variant.inj hc).1 (by simp)
  | _ => cases hc

theorem sameTexts_strict {vars : List (Str × Cmd)} {being : List Str} {c : Cmd} {outs : List Str}
    (h : SameTexts E vars being c outs) : SameTexts (strictEnv E) vars being c outs := by
  induction h with
  | lit h => exact .lit h
  | seq g f h1 h2 _ _ ih1 ih2 => exact .seq g f h1 h2 ih1 ih2
  | one f h1 h2 h3 h4 _ ih => exact .one f h1 h2 h3 h4 ih
  | several f h1 h2 h3 _ h5 h6 ih => exact .several f h1 h2 h3 ih h5 h6
  | ofValues h1 h2 _ h4 h5 h6 ih1 ih2 =>
    refine .ofValues h1 (readAs_env (E := E) (E₀ := strictEnv E) rfl h2) ih1 (strict_gives h4 ?_) (parsesAll_env (E := E) (E₀ := strictEnv E) rfl h5) ih2
    rintro rfl
    cases h5
    exact mkVariant_nil_sameTexts h6
  | wild g f h1 h2 _ h4 h5 h6 h7 _ ih1 ih2 =>
    exact .wild g f h1 (readAs_env (E := E) (E₀ := strictEnv E) rfl h2) ih1 (strict_gives h4 h5) h5 h6
      (fun i hi => readAs_env (E := E) (E₀ := strictEnv E) rfl (h7 i hi)) ih2
  | access h1 h2 _ ih => exact .access h1 h2 ih
  | wrap h1 h2 h3 _ _ h6 h7 ih1 ih2 => exact .wrap h1 h2 h3 ih1 ih2 h6 h7

mutual
theorem could_strict [Nonempty W] {vars : List (Str × Cmd)} {being : List Str} {c : Cmd} {s : Str}
    (h : Could (strictEnv E) vars being c s) : Could E vars being c s := by
  match h with
  | .cmd hm h => exact .cmd hm (couldIn_strict h)
  | .access h1 h2 h3 => exact .access h1 h2 (could_strict h3)
theorem couldIn_strict [Nonempty W] {vars : List (Str × Cmd)} {being : List Str} {c : Cmd} {s : Str}
    (h : CouldIn (strictEnv E) vars being c s) : CouldIn E vars being c s := by
  match h with
  | .lit => exact .lit
  | .seq h1 h2 => exact .seq (couldAssign_strict h1) (couldAll_strict h2)
  | .variant h1 h2 h3 h4 h5 h6 => exact .variant h1 h2 h3 h4 h5 (couldAll_strict h6)
  | .variantOne h1 h2 h3 h4 h5 h6 => exact .variantOne h1 h2 h3 h4 h5 (could_strict h6)
  | .variantSingle h1 h2 => exact .variantSingle h1 (could_strict h2)
  | .variantWild h1 h2 h3 h4 =>
    exact .variantWild (couldPrompt_strict h1) (strict_gave h2).1 (parsesAll_env (E := strictEnv E) (E₀ := E) rfl h3) (couldIn_strict h4)
  | .wild h1 h2 h3 h4 h5 h6 =>
    exact .wild (couldPrompt_strict h1) (strict_gave h2).1 h3 h4 h5 (couldPrompt_strict h6)
  | .wildMissing _ h => exact absurd rfl (strict_gave h).2
  | .wildMissingCmd _ h _ => exact absurd rfl (strict_gave h).2
  | .wrap h1 h2 => exact .wrap (could_strict h1) (could_strict h2)
theorem couldAll_strict [Nonempty W] {vars : List (Str × Cmd)} {being : List Str} {cs : List Cmd} {strs : List Str}
    (h : CouldAll (strictEnv E) vars being cs strs) : CouldAll E vars being cs strs := by
  match h with
  | .nil => exact .nil
  | .cons h1 h2 => exact .cons (could_strict h1) (couldAll_strict h2)
theorem couldPrompt_strict [Nonempty W] {vars : List (Str × Cmd)} {being : List Str} {p : Prompt} {s : Str}
    (h : CouldPrompt (strictEnv E) vars being p s) : CouldPrompt E vars being p s := by
  match h with
  | .text h1 h2 h3 => exact .text h1 h2 (could_strict h3)
  | .cmd h1 h2 => exact .cmd h1 (could_strict h2)
theorem couldAssign_strict [Nonempty W] {vars : List (Str × Cmd)} {being : List Str} {toks t : List Cmd}
    {new : List (Str × Cmd)} (h : CouldAssign (strictEnv E) vars being toks t new) : CouldAssign E vars being toks t new := by
  match h with
  | .nil => exact .nil
  | .tok h1 h2 => exact .tok h1 (couldAssign_strict h2)
  | .keep h1 h2 => exact .keep h1 (couldAssign_strict h2)
  | .plain h1 h2 => exact .plain h1 (couldAssign_strict h2)
  | .literal h1 h2 => exact .literal h1 (couldAssign_strict h2)
  | .immediate h1 h2 h3 h4 => exact .immediate h1 h2 (could_strict h3) (couldAssign_strict h4)
end

/-- A template is settled if it is in the environment without the empty wildcards. -/
theorem settled_strict [Nonempty W] {c : Cmd} (h : Settled E c) : Settled (strictEnv E) c := by
  induction h with
  | lit => exact .lit
  | seq _ ih => exact .seq ih
  | variant h1 h2 _ ih => exact .variant h1 h2 ih
  | lone _ _ h3 _ ih1 ih2 ih4 =>
    refine .lone ih1 ih2 ?_ ?_
    · intro vars being wc items hc hg
      exact h3 vars being wc items (couldPrompt_strict hc) (strict_gave hg).1
    · intro vars being wc items i c hc hg
      exact ih4 vars being wc items i c (couldPrompt_strict hc) (strict_gave hg).1
  | wild _ _ _ ih1 ih2 ih3 => exact .wild ih1 ih2 ih3
  | assign _ ih => exact .assign ih
  | access _ ih => exact .access ih
  | wrap _ _ ih1 ih2 => exact .wrap ih1 ih2

theorem strict_more [Nonempty W] (hM : MoreValues E E') : MoreValues (strictEnv E) E' where
  parse := hM.parse
  ignoreWs := hM.ignoreWs
  toWildcard := hM.toWildcard
  unknown := hM.unknown
  unknownSettled u hu := settled_strict (hM.unknownSettled u hu)
  values wc items hg _ := by
    obtain ⟨h1, h2⟩ := strict_gave hg
    obtain ⟨items', a, b, c, d⟩ := hM.values wc items h1 h2
    exact ⟨items', a, b, fun i hi x hx => settled_strict (c i hi x hx), d⟩

theorem moreValues_more [Nonempty W] (hM : MoreValues E E') : More (strictEnv E) E' where
  ignoreWs := hM.ignoreWs
  toWildcard := hM.toWildcard
  unknown u hu := ⟨u, hM.unknown.trans hu, settled_wider (strict_more hM) ((strict_more hM).unknownSettled u hu)⟩
  missing wc h := absurd rfl (strict_gave h).2
  values wc items hg hne := by
    obtain ⟨items', a, b, c, d⟩ := (strict_more hM).values wc items hg hne
    refine ⟨items', a, fun i hi => (d i hi).1, fun i hi hw => ⟨i, b.subset hi, hw, ?_⟩⟩
    refine ⟨fun h => h, fun x hx => ⟨x, ?_, settled_wider (strict_more hM) (c i hi x hx)⟩⟩
    rw [hM.parse]
    exact hx

mutual
theorem could_lang [Nonempty W] {vars : List (Str × Cmd)} {being : List Str} {c : Cmd} {s : Str}
    (h : Could E vars being c s) : Lang E vars c s := by
  match h with
  | .cmd _ h => exact couldIn_lang h
  | .access h1 _ h3 => exact .access h1 (could_lang h3)
theorem couldIn_lang [Nonempty W] {vars : List (Str × Cmd)} {being : List Str} {c : Cmd} {s : Str}
    (h : CouldIn E vars being c s) : Lang E vars c s := by
  match h with
  | .lit => exact .lit
  | .seq h1 h2 => exact .seq (couldAssign_lang h1) (couldAll_lang h2)
  | .variant h1 _ _ h4 h5 h6 =>
    refine .variant ?_ ?_ h4 h5 (couldAll_lang h6)
    · rintro ⟨p, m, v, w, rfl⟩; simp at h1
    · rintro rfl; simp at h1
  | .variantOne (sep := sep) (m := m) (s := s) h1 _ h3 _ h5 h6 =>
    have h := Lang.variant (E := E) (sep := sep) (m := m) (strs := [s]) ?_ ?_ ?_ (by simpa using h5) (.cons (could_lang h6) .nil)
    · rw [joined_single] at h
      exact h
    · rintro ⟨p, m, v, w, rfl⟩; simp at h1
    · rintro rfl; simp at h1
    · exact List.singleton_subperm_iff.2 (List.mem_map.2 ⟨_, h3, rfl⟩)
  | .variantSingle h1 h2 => exact .variantSingle h1 (could_lang h2)
  | .variantWild h1 h2 h3 h4 => exact .variantWild (couldPrompt_lang h1) (gives_values h2) h3 (couldIn_lang h4)
  | .wild h1 h2 _ h4 _ h6 => exact .wild (couldPrompt_lang h1) (gives_values h2) h4 (couldPrompt_lang h6)
  | .wildMissing h1 h => exact .wildMissing (couldPrompt_lang h1) (gives_values h)
  | .wildMissingCmd h1 h h2 => exact .wildMissingCmd (couldPrompt_lang h1) (gives_values h) (couldPrompt_lang h2)
  | .wrap h1 h2 => exact .wrap (could_lang h1) (could_lang h2) .same .same
theorem couldAll_lang [Nonempty W] {vars : List (Str × Cmd)} {being : List Str} {cs : List Cmd} {strs : List Str}
    (h : CouldAll E vars being cs strs) : LangAll E vars cs strs := by
  match h with
  | .nil => exact .nil
  | .cons h1 h2 => exact .cons (could_lang h1) (couldAll_lang h2)
theorem couldPrompt_lang [Nonempty W] {vars : List (Str × Cmd)} {being : List Str} {p : Prompt} {s : Str}
    (h : CouldPrompt E vars being p s) : LangPrompt E vars p s := by
  match h with
  | .text h1 h2 h3 => exact .text h1 h2 (could_lang h3)
  | .cmd h1 h2 => exact .cmd h1 (could_lang h2)
theorem couldAssign_lang [Nonempty W] {vars : List (Str × Cmd)} {being : List Str} {toks t : List Cmd}
    {new : List (Str × Cmd)} (h : CouldAssign E vars being toks t new) : Assigned E vars toks t new := by
  match h with
  | .nil => exact .nil
  | .tok h1 h2 => exact .tok h1 (couldAssign_lang h2)
  | .keep h1 h2 => exact .set (.keep h1) (couldAssign_lang h2)
  | .plain h1 h2 => exact .set (.plain h1) (couldAssign_lang h2)
  | .literal h1 h2 => exact .set (.literal h1) (couldAssign_lang h2)
  | .immediate h1 _ h3 h4 => exact .set (.immediate h1 (could_lang h3)) (couldAssign_lang h4)
end

end Verif
