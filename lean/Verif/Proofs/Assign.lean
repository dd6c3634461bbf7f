import Verif.Proofs.VarChain
import Verif.Proofs.Distinct
/-! Variable assignments of a sequence. -/

namespace Verif
open Spec
variable {W : Type} {E : Env W}

/-- The command assigns variable `x`. -/
def Cmd.assigns (x : Str) : Cmd → Bool
  | .assign n _ _ _ => n == x
  | _ => false

/-- The command is an assignment. -/
def Cmd.isAssign : Cmd → Bool
  | .assign .. => true
  | _ => false

theorem assigned_toks {vars : List (Str × Cmd)} {toks toks' : List Cmd} {new : List (Str × Cmd)}
    (h : Assigned E vars toks toks' new) : toks' = toks.filter (fun c => !c.isAssign) := by
  match h with
  | .nil => rfl
  | .tok hne h' =>
    rename_i c cs toks
    rw [assigned_toks h']
    cases c with
    | assign n v i o => exact absurd rfl (hne n v i o)
    | _ => rfl
  | .set _ h' => rw [assigned_toks h']; rfl

theorem assigned_none {vars : List (Str × Cmd)} {toks toks' : List Cmd} {new : List (Str × Cmd)}
    (h : Assigned E vars toks toks' new) {x : Str} (hx : ∀ c ∈ toks, c.assigns x = false) :
    new.lookup x = none := by
  match h with
  | .nil => rfl
  | .tok hne h' => exact assigned_none h' (fun c hc => hx c (by simp [hc]))
  | .set (n := n) _ h' =>
    rw [List.lookup_append, assigned_none h' (fun c hc => hx c (by simp [hc]))]
    have := hx _ (List.mem_cons_self ..)
    simp only [Cmd.assigns] at this
    have h2 : (x == n) = false := by rw [beq_eq_false_iff_ne] at this ⊢; exact fun e => this e.symm
    simp [List.lookup_cons, h2]

theorem assigned_last {vars : List (Str × Cmd)} {pre post toks' : List Cmd} {new : List (Str × Cmd)}
    {x : Str} {v : Cmd} {i o : Bool} (h : Assigned E vars (pre ++ .assign x v i o :: post) toks' new)
    (hx : ∀ c ∈ post, c.assigns x = false) :
    ∃ c, AssignedValue E vars x v i o c ∧ new.lookup x = some c := by
  induction pre generalizing toks' new with
  | nil =>
    rw [List.nil_append] at h
    cases h with
    | tok hne _ => exact absurd rfl (hne _ _ _ _)
    | set hv h' =>
      refine ⟨_, hv, ?_⟩
      rw [List.lookup_append, assigned_none h' hx]
      simp 
  | cons c pre ih =>
    rw [List.cons_append] at h
    cases h with
    | tok _ h' => exact ih h'
    | set _ h' =>
      obtain ⟨c, h1, h2⟩ := ih h'
      exact ⟨c, h1, by rw [List.lookup_append, h2]; rfl⟩

/-- The texts of a sequence whose assignments have been evaluated once. -/
def SeqText (E : Env W) (vars : List (Str × Cmd)) (toks : List Cmd) (sep s : Str) : Prop :=
  ∃ strs, LangAll E vars toks strs ∧ (s = joined sep strs ∨ s = joined sep ([] :: strs ++ [[]]))

theorem seq_fixed_next {ctx : Ctx} {toks : List Cmd} {sep : Str} {m : Option Method} {n : Nat}
    {w w' : W} {s : Str} {g : Gen}
    (h : (recs E n).G (.start ctx (.seq toks sep m)) w = .ok (some (s, g)) w') :
    ∃ toks' new, Assigned E ctx.vars toks toks' new ∧ SeqText E (new ++ ctx.vars) toks' sep s ∧
      ∃ D D', GOk E g (SeqText E (new ++ ctx.vars) toks' sep) D D' := by
  cases n with
  | zero => cases h
  | succ n =>
    have hr := recs_good E n
    simp only [recs, stepG] at h
    obtain ⟨g0, w1, h1, h2⟩ := M.bind_ok.1 h
    obtain ⟨⟨toks', new⟩, w2, h4, h5⟩ := M.bind_ok.1 h1
    have hA := assigns_good hr h4
    refine ⟨toks', new, hA, ?_⟩
    have fin : GOk E g0 (SeqText E (new ++ ctx.vars) toks' sep) True True →
        SeqText E (new ++ ctx.vars) toks' sep s ∧
          ∃ D D', GOk E g (SeqText E (new ++ ctx.vars) toks' sep) D D' := by
      intro hg
      have := hr.G hg h2
      exact ⟨this.1, _, _, this.2⟩
    have nf : (do
          let gens ← M.lift (mkGens E.unknown (ctx.withVars new) toks')
          return .seqNF sep gens : M W Gen) w2 = .ok g0 w1 →
        GOk E g0 (SeqText E (new ++ ctx.vars) toks' sep) True True := by
      intro h
      obtain ⟨gens, w3, h6, h7⟩ := M.bind_ok.1 h
      replace h6 := M.lift_ok_iff.1 h6
      simp only [M.pure_eq, Res.ok.injEq] at h7
      rw [← h7.1]
      exact .seqNF (mkGens_GOkL h6.1) (fun vs hv => ⟨vs, all2_LangAll hv, Or.inl rfl⟩)
    cases hm : ctx.method with
    | random => rw [hm] at h5; exact fin (nf h5)
    | cyc => rw [hm] at h5; exact fin (nf h5)
    | comb =>
      rw [hm] at h5
      obtain ⟨coll, w3, h6, h7⟩ := M.bind_ok.1 h5
      simp only [M.pure_eq, Res.ok.injEq] at h7
      apply fin
      rw [← h7.1]
      refine .combSeq (mkColl_good hr h6) (.start hm rfl) (fun vs hv => ?_) trivial trivial
      have hL := all2_LangAll hv
      cases hL with
      | cons ha hb =>
        cases ha
        obtain ⟨v1, v2, rfl, hc, hd⟩ := langAll_append hb
        cases hd with
        | cons he hf =>
          cases he; cases hf
          exact ⟨v1, hc, Or.inr rfl⟩

theorem seq_fixed_collect {ctx : Ctx} {toks : List Cmd} {sep : Str} {m : Option Method} (n k : Nat)
    (w : W) :
    (collect E n k (.start ctx (.seq toks sep m)) w).1 = [] ∨
    ∃ toks' new, Assigned E ctx.vars toks toks' new ∧
      ∀ s ∈ (collect E n k (.start ctx (.seq toks sep m)) w).1,
        SeqText E (new ++ ctx.vars) toks' sep s := by
  cases k with
  | zero => exact Or.inl rfl
  | succ k =>
    unfold collect
    cases hn : nextG E n (.start ctx (.seq toks sep m)) w with
    | ok o w' =>
      rcases o with _ | ⟨v, g'⟩
      · exact Or.inl rfl
      · right
        obtain ⟨toks', new, h1, h2, D, D', h3⟩ := seq_fixed_next hn
        refine ⟨toks', new, h1, ?_⟩
        intro s hs
        rcases List.mem_cons.1 hs with rfl | hs
        · exact h2
        · exact collect_good h3 w' s hs
    | err e w' => exact Or.inl rfl
    | fuel => exact Or.inl rfl

/-- What sampling a command gives, in terms of the generator of the command alone. -/
theorem samplePrompts_cmd (E : Env W) (fuel : Nat) (ctx : Ctx) (c : Cmd) (k : Nat) (w : W)
    {ctx' : Ctx} (hc : c.truthy = true) (hg : mkGen E.unknown ctx c = .ok (.start ctx' c)) :
    ∃ n, (samplePrompts E fuel ctx (.inr c) k w).1 =
      (collect E n k (.start ctx' c) w).1.map (squashIf E.ignoreWs) := by
  unfold samplePrompts sampleGen
  simp only [hc, Bool.not_true, Bool.false_eq_true, if_false, hg]
  by_cases hw : E.ignoreWs = true
  · have hsq : squashIf E.ignoreWs = squashWhitespace := by funext s; simp [squashIf, hw]
    simp only [hw, if_true]
    cases fuel with
    | zero => exact ⟨0, by cases k <;> rfl⟩
    | succ fuel =>
      refine ⟨fuel, ?_⟩
      rw [hw] at hsq
      rw [collect_squash, hsq]
  · have hsq : squashIf E.ignoreWs = id := by funext s; simp [squashIf, hw]
    simp only [hw, Bool.false_eq_true, if_false]
    simp only [hw] at hsq
    exact ⟨fuel, by rw [hsq, List.map_id]⟩

theorem mkGen_seq (u : Option Cmd) (ctx : Ctx) (toks : List Cmd) (sep : Str) (m : Option Method) :
    mkGen u ctx (.seq toks sep m) = .ok (.start (ctx.withMethod (effMethod ctx.method m)) (.seq toks sep m)) :=
  mkGen_outcome (.target (by simp))

theorem langAll_get {vars : List (Str × Cmd)} {cs : List Cmd} {strs : List Str}
    (h : LangAll E vars cs strs) {i : Nat} {c : Cmd} (hi : cs[i]? = some c) :
    ∃ s, strs[i]? = some s ∧ Lang E vars c s := by
  induction cs generalizing strs i with
  | nil => simp at hi
  | cons c' cs ih =>
    cases h with
    | cons h1 h2 =>
      cases i with
      | zero => simp at hi; subst hi; exact ⟨_, rfl, h1⟩
      | succ i => exact ih h2 (by simpa using hi)

end Verif
