import Verif.Proofs.Sound
import Verif.Spec.Variables
/-! Variable resolution terminates and follows the specification. -/

namespace Verif
open Spec

theorem effMethod_eq_nest (m : Method) (o : Option Method) : effMethod m o = nest m o := by
  cases m <;> rcases o with _ | o <;> try cases o
  all_goals rfl

theorem resolveVar_of {u : Option Cmd} {vars : List (Str × Cmd)} {name : Str} {d : Option Cmd}
    {c : Cmd} (h : Resolves u vars name d c) : resolveVar u vars name d = .ok c := by
  unfold resolveVar
  cases h with
  | var h1 h2 => simp [h1, h2]
  | default h1 h2 => simp [h1, h2]
  | unknownEmpty h1 h2 h3 => simp [h1, h2, h3]
  | unknownEmptyDefault h1 h2 h3 => simp [h1, h2, h3]
  | unknown h1 h2 => simp [h1, h2]

theorem resolveVar_iff {u : Option Cmd} {vars : List (Str × Cmd)} {name : Str} {d : Option Cmd}
    {c : Cmd} : resolveVar u vars name d = .ok c ↔ Resolves u vars name d c :=
  ⟨resolveVar_ok, resolveVar_of⟩

theorem resolveVar_error_iff {u : Option Cmd} {vars : List (Str × Cmd)} {name : Str} {d : Option Cmd}
    {e : Err} : resolveVar u vars name d = .error e ↔ e = .key name ∧ Undefined u vars name d := by
  unfold resolveVar Undefined
  cases vars.lookup name with
  | some c => cases ht : c.truthy <;> cases u <;> simp [ht, @eq_comm _ (Err.key name) e]
  | none =>
    cases d with
    | none => cases u <;> simp [@eq_comm _ (Err.key name) e]
    | some d => cases ht : d.truthy <;> cases u <;> simp [ht, @eq_comm _ (Err.key name) e]

/-- What `generator_from_command` gives for an outcome of resolution. -/
def outcomeGen (ctx : Ctx) : Outcome → Except Err Gen
  | .recursion n => .error (.recursion n)
  | .undefined n => .error (.key n)
  | .target b c =>
    match c with
    | .assign .. => .error .notImplemented
    | .wrap .. => if effMethod ctx.method c.method = .cyc then .error .notImplemented
        else .ok (.start ⟨effMethod ctx.method c.method, ctx.vars, b⟩ c)
    | c => .ok (.start ⟨effMethod ctx.method c.method, ctx.vars, b⟩ c)

theorem mkGenF_outcome {u : Option Cmd} {n : Nat} {ctx : Ctx} {c : Cmd} {r : Except Err Gen}
    (h : mkGenF u n ctx c = some r) :
    ∃ o, Chain u ctx.vars ctx.being c o ∧ r = outcomeGen ctx o := by
  induction n generalizing ctx c with
  | zero =>
    cases c with
    | access name d =>
      simp only [mkGenF, Cmd.method, effMethod, Ctx.withMethod] at h
      cases hr : resolveVar u ctx.vars name d with
      | error e =>
        rw [hr] at h; simp at h; subst h
        obtain ⟨rfl, hu⟩ := resolveVar_error_iff.1 hr
        exact ⟨_, .undefined hu, rfl⟩
      | ok c' =>
        rw [hr] at h
        by_cases hb : name ∈ ctx.being
        · simp [hb] at h; subst h
          exact ⟨_, .loop (resolveVar_ok hr) hb, rfl⟩
        · simp [hb] at h
    | assign => simp [mkGenF] at h; subst h; exact ⟨_, .target (by simp), rfl⟩
    | wrap wr i m =>
      refine ⟨_, .target (by simp), ?_⟩
      simp only [mkGenF, outcomeGen] at h ⊢
      split at h <;> rename_i hc
      · rw [if_pos (by exact hc)]; simpa using h.symm
      · rw [if_neg (by exact hc)]; exact (Option.some.inj h).symm
    | _ => simp [mkGenF] at h; subst h; exact ⟨_, .target (by simp), rfl⟩
  | succ n ih =>
    cases c with
    | access name d =>
      simp only [mkGenF, Cmd.method, effMethod, Ctx.withMethod] at h
      cases hr : resolveVar u ctx.vars name d with
      | error e =>
        rw [hr] at h; simp at h; subst h
        obtain ⟨rfl, hu⟩ := resolveVar_error_iff.1 hr
        exact ⟨_, .undefined hu, rfl⟩
      | ok c' =>
        rw [hr] at h
        by_cases hb : name ∈ ctx.being
        · simp [hb] at h; subst h
          exact ⟨_, .loop (resolveVar_ok hr) hb, rfl⟩
        · simp [hb] at h
          obtain ⟨o, ho, rfl⟩ := ih h
          refine ⟨o, .step (resolveVar_ok hr) hb ho, ?_⟩
          cases o <;> rfl
    | assign => simp [mkGenF] at h; subst h; exact ⟨_, .target (by simp), rfl⟩
    | wrap wr i m =>
      refine ⟨_, .target (by simp), ?_⟩
      simp only [mkGenF, outcomeGen] at h ⊢
      split at h <;> rename_i hc
      · rw [if_pos (by exact hc)]; simpa using h.symm
      · rw [if_neg (by exact hc)]; exact (Option.some.inj h).symm
    | _ => simp [mkGenF] at h; subst h; exact ⟨_, .target (by simp), rfl⟩

theorem Chain.det {u : Option Cmd} {vars : List (Str × Cmd)} {b : List Str} {c : Cmd} {o o' : Outcome}
    (h : Spec.Chain u vars b c o) (h' : Spec.Chain u vars b c o') : o = o' := by
  induction h generalizing o' with
  | target hn =>
    cases h' with
    | target => rfl
    | _ => exact absurd rfl (hn _ _)
  | undefined hu =>
    have hu' := (resolveVar_error_iff (e := .key _)).2 ⟨rfl, hu⟩
    cases h' with
    | target hn => exact absurd rfl (hn _ _)
    | undefined => rfl
    | loop hr _ => rw [resolveVar_of hr] at hu'; cases hu'
    | step hr _ _ => rw [resolveVar_of hr] at hu'; cases hu'
  | loop hr hb =>
    have hr := resolveVar_of hr
    cases h' with
    | target hn => exact absurd rfl (hn _ _)
    | undefined hu => rw [(resolveVar_error_iff (e := .key _)).2 ⟨rfl, hu⟩] at hr; cases hr
    | loop => rfl
    | step _ hb' _ => exact absurd hb hb'
  | step hr hb _ ih =>
    have hr := resolveVar_of hr
    cases h' with
    | target hn => exact absurd rfl (hn _ _)
    | undefined hu => rw [(resolveVar_error_iff (e := .key _)).2 ⟨rfl, hu⟩] at hr; cases hr
    | loop _ hb' => exact absurd hb' hb
    | step hr' _ h' =>
      rw [resolveVar_of hr'] at hr
      cases hr
      exact ih h'

theorem chainNames_resolve {u : Option Cmd} {vars : List (Str × Cmd)} {name : Str} {d : Option Cmd}
    {c : Cmd} (h : Resolves u vars name d c) {all : List Str}
    (h1 : ∀ x ∈ (Cmd.access name d).chainNames, x ∈ all)
    (h2 : ∀ x ∈ vars.flatMap (fun p => p.2.chainNames), x ∈ all)
    (h3 : ∀ v, u = some v → ∀ x ∈ v.chainNames, x ∈ all) : ∀ x ∈ c.chainNames, x ∈ all := by
  have hlook : ∀ c, vars.lookup name = some c → ∀ x ∈ c.chainNames, x ∈ all := by
    intro c hc x hx
    have : (name, c) ∈ vars := by
      clear h h1 h2 h3
      induction vars with
      | nil => simp at hc
      | cons p vars ih =>
        obtain ⟨k, v⟩ := p
        rw [List.lookup_cons] at hc
        by_cases he : name = k
        · subst he; simp at hc; subst hc; simp
        · have : (name == k) = false := by simpa using he
          rw [this] at hc
          exact List.mem_cons_of_mem _ (ih hc)
    exact h2 x (List.mem_flatMap.2 ⟨_, this, hx⟩)
  cases h with
  | var hl _ => exact hlook _ hl
  | default => intro x hx; exact h1 x (by simp [Cmd.chainNames, hx])
  | unknownEmpty _ _ hu => exact h3 _ hu
  | unknownEmptyDefault _ _ hu => exact h3 _ hu
  | unknown _ hu => exact h3 _ hu

theorem mkGenF_total {u : Option Cmd} {all : List Str} {n : Nat} {ctx : Ctx} {c : Cmd}
    (h1 : ∀ x ∈ c.chainNames, x ∈ all)
    (h2 : ∀ x ∈ ctx.vars.flatMap (fun p => p.2.chainNames), x ∈ all)
    (h3 : ∀ v, u = some v → ∀ x ∈ v.chainNames, x ∈ all)
    (hn : (all.filter (fun x => x ∉ ctx.being)).length < n) : ∃ r, mkGenF u n ctx c = some r := by
  induction n generalizing ctx c with
  | zero => omega
  | succ n ih =>
    cases c with
    | access name d =>
      simp only [mkGenF, Cmd.method, effMethod, Ctx.withMethod]
      cases hr : resolveVar u ctx.vars name d with
      | error e => exact ⟨_, rfl⟩
      | ok c' =>
        by_cases hb : name ∈ ctx.being
        · simp [hb]
        · simp only [List.contains_eq_mem, hb, decide_false, Bool.false_eq_true, if_false]
          refine ih (chainNames_resolve (resolveVar_ok hr) h1 h2 h3) h2 ?_
          have hm : name ∈ all := h1 name (by cases d <;> simp [Cmd.chainNames])
          have : (all.filter (fun x => x ∉ name :: ctx.being)).length <
              (all.filter (fun x => x ∉ ctx.being)).length := by
            have he : all.filter (fun x => x ∉ name :: ctx.being) =
                (all.filter (fun x => x ∉ ctx.being)).filter (fun x => x ≠ name) := by
              rw [List.filter_filter]
              apply List.filter_congr
              intro x _
              by_cases hx : x = name <;> simp [hx]
            rw [he]
            exact List.length_filter_lt_length_iff_exists.2
              ⟨name, List.mem_filter.2 ⟨hm, by simpa using hb⟩, by simp⟩
          show (all.filter (fun x => x ∉ name :: ctx.being)).length < n
          omega
    | wrap wr i m => simp only [mkGenF]; split <;> exact ⟨_, rfl⟩
    | _ => exact ⟨_, rfl⟩

/-- The fuel supplied by `mkGen` is always enough. -/
theorem mkGenF_enough (u : Option Cmd) (ctx : Ctx) (c : Cmd) (n : Nat) (hn : chainFuel u ctx c ≤ n) :
    ∃ r, mkGenF u n ctx c = some r := by
  obtain ⟨us, hus, hlen⟩ : ∃ us, (∀ v, u = some v → v.chainNames = us) ∧ chainFuel u ctx c =
      (c.chainNames ++ (ctx.vars.flatMap fun p => p.2.chainNames) ++ us).length + 1 := by
    cases u with
    | none => exact ⟨[], by simp, rfl⟩
    | some u => exact ⟨u.chainNames, by simp, rfl⟩
  refine mkGenF_total (all := c.chainNames ++ (ctx.vars.flatMap fun p => p.2.chainNames) ++ us)
    ?_ ?_ ?_ ?_
  · intro x hx; simp [hx]
  · intro x hx; rw [List.mem_append, List.mem_append]; exact Or.inl (Or.inr hx)
  · intro v hv x hx; rw [hus v hv] at hx; simp [hx]
  · refine Nat.lt_of_le_of_lt (List.length_filter_le _ _) ?_
    omega

theorem mkGen_outcome {u : Option Cmd} {ctx : Ctx} {c : Cmd} {o : Outcome}
    (h : Chain u ctx.vars ctx.being c o) : mkGen u ctx c = outcomeGen ctx o := by
  obtain ⟨r, hr⟩ := mkGenF_enough u ctx c _ (Nat.le_refl _)
  obtain ⟨o', ho', rfl⟩ := mkGenF_outcome hr
  rw [Chain.det h ho']
  unfold mkGen
  rw [hr]

theorem chain_total (u : Option Cmd) (vars : List (Str × Cmd)) (being : List Str) (c : Cmd) :
    ∃ o, Chain u vars being c o := by
  obtain ⟨r, hr⟩ := mkGenF_enough u ⟨.random, vars, being⟩ c _ (Nat.le_refl _)
  obtain ⟨o, ho, -⟩ := mkGenF_outcome hr
  exact ⟨o, ho⟩

end Verif
