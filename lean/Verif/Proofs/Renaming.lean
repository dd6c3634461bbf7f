import Verif.Spec.Renaming
import Verif.Proofs.Footprint
import Mathlib.Data.List.Basic
import Mathlib.Logic.Function.Basic
/-! A template and the template with renamed variables run in lockstep. -/

namespace Verif
open Spec

/-! ### Renaming commands -/

section
variable {ρ : Str → Str}

theorem renameL_map (l : List Cmd) : Cmd.renameL ρ l = l.map (Cmd.rename ρ) := by
  induction l with
  | nil => rfl
  | cons c l ih => simp only [Cmd.renameL, List.map_cons, ih]

theorem renameO_map (l : List (Cmd × Rat)) : Cmd.renameO ρ l = l.map fun p => (p.1.rename ρ, p.2) := by
  induction l with
  | nil => rfl
  | cons c l ih => simp only [Cmd.renameO, List.map_cons, ih]

theorem renameV_map (l : List (Str × Cmd)) : Cmd.renameV ρ l = l.map fun p => (ρ p.1, p.2.rename ρ) := by
  induction l with
  | nil => rfl
  | cons c l ih => simp only [Cmd.renameV, List.map_cons, ih]

mutual
theorem rename_back {σ : Str → Str} (h : ∀ n, σ (ρ n) = n) : ∀ c : Cmd, (c.rename ρ).rename σ = c
  | .lit .. => rfl
  | .seq toks _ _ => by simp only [Cmd.rename, renameL_back h toks]
  | .variant opts _ _ _ _ => by simp only [Cmd.rename, renameO_back h opts]
  | .wild (.inl _) _ v => by simp only [Cmd.rename, renameV_back h v]
  | .wild (.inr p) _ v => by simp only [Cmd.rename, renameV_back h v, rename_back h p]
  | .assign _ v _ _ => by simp only [Cmd.rename, h, rename_back h v]
  | .access _ none => by simp only [Cmd.rename, h]
  | .access _ (some d) => by simp only [Cmd.rename, h, rename_back h d]
  | .wrap w i _ => by simp only [Cmd.rename, rename_back h w, rename_back h i]
theorem renameL_back {σ : Str → Str} (h : ∀ n, σ (ρ n) = n) : ∀ l : List Cmd, Cmd.renameL σ (Cmd.renameL ρ l) = l
  | [] => rfl
  | c :: cs => by simp only [Cmd.renameL, rename_back h c, renameL_back h cs]
theorem renameO_back {σ : Str → Str} (h : ∀ n, σ (ρ n) = n) :
    ∀ l : List (Cmd × Rat), Cmd.renameO σ (Cmd.renameO ρ l) = l
  | [] => rfl
  | (c, _) :: cs => by simp only [Cmd.renameO, rename_back h c, renameO_back h cs]
theorem renameV_back {σ : Str → Str} (h : ∀ n, σ (ρ n) = n) :
    ∀ l : List (Str × Cmd), Cmd.renameV σ (Cmd.renameV ρ l) = l
  | [] => rfl
  | (_, c) :: cs => by simp only [Cmd.renameV, h, rename_back h c, renameV_back h cs]
end

theorem rename_injective (h : Function.Injective ρ) : Function.Injective (Cmd.rename ρ) := by
  obtain ⟨σ, hσ⟩ := h.hasLeftInverse
  intro a b hab
  rw [← rename_back hσ a, hab, rename_back hσ b]

theorem rename_method (c : Cmd) : (c.rename ρ).method = c.method := by
  rcases c with _ | _ | _ | ⟨_ | _, _, _⟩ | _ | ⟨_, _ | _⟩ | _ <;> rfl

theorem rename_truthy (c : Cmd) : (c.rename ρ).truthy = c.truthy := by
  rcases c with _ | toks | opts | ⟨_ | _, _, _⟩ | _ | ⟨_, _ | _⟩ | _ <;> try rfl
  · simp [Cmd.rename, Cmd.truthy, renameL_map]
  · simp [Cmd.rename, Cmd.truthy, renameO_map]

theorem renameV_append (a b : List (Str × Cmd)) : Cmd.renameV ρ (a ++ b) = Cmd.renameV ρ a ++ Cmd.renameV ρ b := by
  simp [renameV_map]

theorem lookup_rename (hρ : Function.Injective ρ) (vars : List (Str × Cmd)) (n : Str) :
    (Cmd.renameV ρ vars).lookup (ρ n) = (vars.lookup n).map (Cmd.rename ρ) := by
  induction vars with
  | nil => rfl
  | cons p vars ih =>
    obtain ⟨x, c⟩ := p
    simp only [Cmd.renameV, List.lookup_cons]
    by_cases h : n = x
    · subst h; simp
    · have : ρ n ≠ ρ x := fun e => h (hρ e)
      simp only [beq_eq_false_iff_ne.2 h, beq_eq_false_iff_ne.2 this]
      exact ih

theorem mem_being {being : List Str} (hρ : Function.Injective ρ) (n : Str) : ρ n ∈ being.map ρ ↔ n ∈ being :=
  List.mem_map_of_injective hρ

/-- The end of a chain of variables. -/
def renameOutcome (ρ : Str → Str) : Outcome → Outcome
  | .target b c => .target (b.map ρ) (c.rename ρ)
  | .undefined n => .undefined (ρ n)
  | .recursion n => .recursion (ρ n)

variable {u : Option Cmd}

theorem resolves_rename (hρ : Function.Injective ρ) (hu : ∀ x, u = some x → x.rename ρ = x)
    {vars : List (Str × Cmd)} {n : Str} {d : Option Cmd} {c : Cmd} (h : Resolves u vars n d c) :
    Resolves u (Cmd.renameV ρ vars) (ρ n) (d.map (Cmd.rename ρ)) (c.rename ρ) := by
  cases h with
  | var h h' => exact .var (by rw [lookup_rename hρ, h]; rfl) (by rw [rename_truthy]; exact h')
  | default h h' => exact .default (by rw [lookup_rename hρ, h]; rfl) (by rw [rename_truthy]; exact h')
  | unknownEmpty h h' e =>
    rw [hu _ e]
    exact .unknownEmpty (by rw [lookup_rename hρ, h]; rfl) (by rw [rename_truthy]; exact h') e
  | unknownEmptyDefault h h' e =>
    rw [hu _ e]
    exact .unknownEmptyDefault (by rw [lookup_rename hρ, h]; rfl) (by rw [rename_truthy]; exact h') e
  | unknown h e =>
    rw [hu _ e]
    exact .unknown (by rw [lookup_rename hρ, h]; rfl) e

theorem access_rename (n : Str) (d : Option Cmd) :
    Cmd.rename ρ (.access n d) = .access (ρ n) (d.map (Cmd.rename ρ)) := by
  cases d <;> rfl

theorem not_access_rename {c : Cmd} (h : ∀ n d, c ≠ .access n d) (n : Str) (d : Option Cmd) :
    c.rename ρ ≠ .access n d := by
  rcases c with _ | _ | _ | ⟨_ | _, _, _⟩ | _ | ⟨_, _ | _⟩ | _ <;>
    first | exact absurd rfl (h _ _) | (intro e; cases e)
end

/-! ### Two programs that do the same up to names -/

section
variable {W : Type} {α β γ δ : Type} {ρ : Str → Str}

/-- From every world both do the same, with related results; names in exceptions are renamed. -/
def Mirror (ρ : Str → Str) (P : α → β → Prop) (x : M W α) (y : M W β) : Prop :=
  ∀ w, match x w, y w with
    | .ok a w1, .ok b w2 => P a b ∧ w1 = w2
    | .err e w1, .err e' w2 => e' = e.rename ρ ∧ w1 = w2
    | .fuel, .fuel => True
    | _, _ => False

theorem Mirror.pure {P : α → β → Prop} {a : α} {b : β} (h : P a b) :
    Mirror ρ P (Pure.pure a : M W α) (Pure.pure b : M W β) := fun _ => ⟨h, rfl⟩

theorem Mirror.raise {P : α → β → Prop} {e e' : Err} (h : e' = e.rename ρ) :
    Mirror ρ P (M.raise e : M W α) (M.raise e' : M W β) := fun _ => ⟨h, rfl⟩

theorem Mirror.diverge {P : α → β → Prop} : Mirror ρ P (M.diverge : M W α) (M.diverge : M W β) := fun _ => trivial

theorem Mirror.bind {P : α → β → Prop} {Q : γ → δ → Prop} {x : M W α} {y : M W β} {f : α → M W γ} {g : β → M W δ}
    (hx : Mirror ρ P x y) (hf : ∀ a b, P a b → Mirror ρ Q (f a) (g b)) : Mirror ρ Q (x >>= f) (y >>= g) := by
  intro w
  have h := hx w
  rw [M.bind_eq, M.bind_eq]
  cases hxw : x w with
  | ok a w1 =>
    cases hyw : y w with
    | ok b w2 => rw [hxw, hyw] at h; obtain ⟨h1, rfl⟩ := h; exact hf a b h1 w1
    | err e w2 => rw [hxw, hyw] at h; exact h.elim
    | fuel => rw [hxw, hyw] at h; exact h.elim
  | err e w1 =>
    cases hyw : y w with
    | ok b w2 => rw [hxw, hyw] at h; exact h.elim
    | err e' w2 => rw [hxw, hyw] at h; exact h
    | fuel => rw [hxw, hyw] at h; exact h.elim
  | fuel =>
    cases hyw : y w with
    | ok b w2 => rw [hxw, hyw] at h; exact h.elim
    | err e' w2 => rw [hxw, hyw] at h; exact h.elim
    | fuel => trivial

theorem Mirror.weaken {P Q : α → β → Prop} {x : M W α} {y : M W β} (h : Mirror ρ P x y) (hpq : ∀ a b, P a b → Q a b) :
    Mirror ρ Q x y := by
  intro w
  have := h w
  cases hx : x w <;> cases hy : y w <;> rw [hx, hy] at this <;> first | exact this | exact ⟨hpq _ _ this.1, this.2⟩

/-- What is known about the first program. -/
theorem Mirror.knowing {P : α → β → Prop} {Q : α → Prop} {x : M W α} {y : M W β} (h : Mirror ρ P x y)
    (hq : ∀ w a w', x w = .ok a w' → Q a) : Mirror ρ (fun a b => P a b ∧ Q a) x y := by
  intro w
  have := h w
  cases hx : x w <;> cases hy : y w <;> rw [hx, hy] at this <;>
    first | exact this | exact ⟨⟨this.1, hq _ _ _ hx⟩, this.2⟩

/-- The same program, whose exceptions name no renamed variable. -/
theorem Mirror.self {x : M W α} (h : ∀ w e w', x w = .err e w' → e.rename ρ = e) : Mirror ρ Eq x x := by
  intro w
  cases hx : x w with
  | ok a w => exact ⟨rfl, rfl⟩
  | err e w1 => exact ⟨(h _ _ _ hx).symm, rfl⟩
  | fuel => trivial

/-- Related results without a world. -/
def LiftMirror (ρ : Str → Str) (P : α → β → Prop) : Except Err α → Except Err β → Prop
  | .ok a, .ok b => P a b
  | .error e, .error e' => e' = e.rename ρ
  | _, _ => False

theorem Mirror.lift {P : α → β → Prop} {x : Except Err α} {y : Except Err β} (h : LiftMirror ρ P x y) :
    Mirror ρ P (M.lift x : M W α) (M.lift y : M W β) := by
  cases x <;> cases y <;> first | exact h.elim | exact .raise h | exact .pure h

theorem LiftMirror.cases {P : α → β → Prop} {x : Except Err α} {y : Except Err β} (h : LiftMirror ρ P x y) :
    (∃ e, x = .error e ∧ y = .error (e.rename ρ)) ∨ ∃ a b, x = .ok a ∧ y = .ok b ∧ P a b := by
  cases x with
  | error e =>
    cases y with
    | error e' => exact .inl ⟨e, rfl, by rw [show e' = e.rename ρ from h]⟩
    | ok b => exact h.elim
  | ok a =>
    cases y with
    | error e' => exact h.elim
    | ok b => exact .inr ⟨a, b, rfl, rfl, h⟩

/-! ### Draws -/

theorem choicesCum_map (rng : Rng W) (f : α → β) (pop : List α) (cum : List Rat) (k : Nat) :
    Mirror ρ (fun a b => b = a.map f) (rng.choicesCum pop cum k) (rng.choicesCum (pop.map f) cum k) := by
  induction k with
  | zero =>
    intro w
    unfold Rng.choicesCum
    simp only [List.length_map]
    by_cases h1 : cum.length ≠ pop.length
    · rw [if_pos h1, if_pos h1]; exact ⟨rfl, rfl⟩
    · rw [if_neg h1, if_neg h1]
      by_cases h2 : cum.isEmpty = true
      · rw [if_pos h2, if_pos h2]; exact ⟨rfl, rfl⟩
      · rw [if_neg h2, if_neg h2]
        by_cases h3 : cum.getLastD 0 ≤ 0
        · rw [if_pos h3, if_pos h3]; exact ⟨rfl, rfl⟩
        · rw [if_neg h3, if_neg h3]; exact ⟨rfl, rfl⟩
  | succ k ih =>
    intro w
    unfold Rng.choicesCum
    simp only [List.length_map, List.getElem?_map]
    by_cases h1 : cum.length ≠ pop.length
    · rw [if_pos h1, if_pos h1]; exact ⟨rfl, rfl⟩
    · rw [if_neg h1, if_neg h1]
      by_cases h2 : cum.isEmpty = true
      · rw [if_pos h2, if_pos h2]; exact ⟨rfl, rfl⟩
      · rw [if_neg h2, if_neg h2]
        by_cases h3 : cum.getLastD 0 ≤ 0
        · rw [if_pos h3, if_pos h3]; exact ⟨rfl, rfl⟩
        · rw [if_neg h3, if_neg h3]
          cases pop[weightedIndex rng.arith cum (rng.unit w).1.val]? with
          | none => exact ⟨rfl, rfl⟩
          | some v =>
            exact (ih.bind (Q := fun a b => b = a.map f) (f := fun vs => Pure.pure (v :: vs))
              (g := fun vs => Pure.pure (f v :: vs)) fun a b hab => .pure (by rw [hab]; rfl)) (rng.unit w).2

theorem idxOf_map_inj [DecidableEq α] [DecidableEq β] {f : α → β} (hf : Function.Injective f) (l : List α) (a : α) :
    (l.map f).idxOf (f a) = l.idxOf a := by
  induction l with
  | nil => rfl
  | cons x l ih =>
    simp only [List.map_cons, List.idxOf_cons]
    by_cases h : x = a
    · subst h; simp
    · have : f x ≠ f a := fun e => h (hf e)
      simp only [beq_eq_false_iff_ne.2 h, beq_eq_false_iff_ne.2 this, ih]

theorem chooseLoop_map [DecidableEq α] [DecidableEq β] (rng : Rng W) {f : α → β} (hf : Function.Injective f) (k : Nat)
    (values : List α) (weights : List Rat) :
    Mirror ρ (fun a b => b = a.map f) (chooseLoop rng k values weights) (chooseLoop rng k (values.map f) weights) := by
  induction k generalizing values weights with
  | zero => exact .pure rfl
  | succ k ih =>
    unfold chooseLoop
    refine (choicesCum_map rng f values _ 1).bind fun a b hab => ?_
    subst hab
    cases a with
    | nil => exact .raise rfl
    | cons c l =>
      simp only [List.map_cons, ← List.map_erase hf, idxOf_map_inj hf]
      exact (ih _ _).bind fun a b hab => .pure (by rw [hab]; rfl)

theorem choose_map [DecidableEq α] [DecidableEq β] (rng : Rng W) {f : α → β} (hf : Function.Injective f)
    (values : List α) (weights : List Rat) (k : Int) :
    Mirror ρ (fun a b => b = a.map f) (chooseWithoutReplacement rng values weights k)
      (chooseWithoutReplacement rng (values.map f) weights k) := by
  unfold chooseWithoutReplacement
  simp only [List.length_map]
  by_cases h1 : (values.length : Int) < k
  · rw [if_pos h1, if_pos h1]; exact .raise rfl
  · rw [if_neg h1, if_neg h1]
    generalize (if weights.isEmpty = true then List.replicate values.length 1 else weights) = ws
    by_cases h2 : values.length ≠ ws.length
    · rw [if_pos h2, if_pos h2]; exact .raise rfl
    · rw [if_neg h2, if_neg h2]
      match values with
      | [] => exact .pure rfl
      | [v] => exact .pure rfl
      | v :: v' :: vs => exact chooseLoop_map rng hf _ _ _

theorem getCombos_renamed [DecidableEq α] [DecidableEq β] {f : α → β} (hf : Function.Injective f) (k : Nat) (l : List α) :
    getCombos k (l.map f) = (getCombos k l).map (List.map f) := by
  induction k generalizing l with
  | zero => rfl
  | succ k ih =>
    simp only [getCombos, List.map_flatMap, List.flatMap_map]
    congr 1
    funext v
    have : (l.map f).filter (fun u => u ≠ f v) = (l.filter fun u => u ≠ v).map f := by
      rw [List.filter_map]
      congr 1
      apply List.filter_congr
      intro x _
      simp [hf.eq_iff]
    rw [this, ih]
    simp [List.map_map, Function.comp_def]

theorem boundCombos_renamed [DecidableEq α] [DecidableEq β] {f : α → β} (hf : Function.Injective f) (l : List α) (lo hi : Int) :
    boundCombos (l.map f) lo hi = (boundCombos l lo hi).map fun p => (p.1, p.2.map f) := by
  simp only [boundCombos, List.map_flatMap, getCombos_renamed hf, List.map_map, Function.comp_def]

theorem randint_mirror (rng : Rng W) (a b : Int) : Mirror ρ Eq (rng.randint a b) (rng.randint a b) := by
  refine .self fun w e w' h => ?_
  unfold Rng.randint at h
  split at h
  · cases h
  · cases h; rfl

theorem choice_mirror (rng : Rng W) (l : List α) : Mirror ρ Eq (rng.choice l) (rng.choice l) := by
  refine .self fun w e w' h => ?_
  unfold Rng.choice at h
  cases l with
  | nil => cases h; rfl
  | cons a l => cases h

theorem choicesCum_mirror (rng : Rng W) (l : List α) (cum : List Rat) (k : Nat) :
    Mirror ρ Eq (rng.choicesCum l cum k) (rng.choicesCum l cum k) := by
  have := choicesCum_map (ρ := ρ) rng (fun x => x) l cum k
  simp only [List.map_id'] at this
  exact this.weaken fun a b h => h.symm

theorem weightedNext_mirror (rng : Rng W) (items : List Item) (buf : List Str) :
    Mirror ρ Eq (weightedNext rng items buf) (weightedNext rng items buf) := by
  unfold weightedNext
  split
  · exact (choice_mirror rng _).bind fun a b hab => .pure (by rw [hab])
  · cases buf with
    | cons v buf => exact .pure rfl
    | nil =>
      refine (choicesCum_mirror rng _ _ 10).bind fun a b hab => ?_
      subst hab
      cases a with
      | nil => exact .raise rfl
      | cons v l => exact .pure rfl
end

/-! ### Related states -/

section
variable {W : Type} {E : Env W} {ρ : Str → Str}

theorem texts_part {c c' : Cmd} (h : TextsKeep E ρ c) (hp : Part E c c') : TextsKeep E ρ c' :=
  fun x d hx => h x d (Relation.ReflTransGen.head hp hx)

theorem texts_lit {t : Str} {m : Option Method} : TextsKeep E ρ (.lit t m) := by
  intro x d hx hd
  rcases Relation.ReflTransGen.cases_head hx with h | ⟨y, h, -⟩
  · subst h; cases hd
  · cases h

theorem texts_variant {opts : List (Cmd × Rat)} {lo hi : Int} {sep : Str} {m : Option Method}
    (h : ∀ p ∈ opts, TextsKeep E ρ p.1) : TextsKeep E ρ (.variant opts lo hi sep m) := by
  intro x d hx hd
  rcases Relation.ReflTransGen.cases_head hx with h' | ⟨y, h', h''⟩
  · subst h'; cases hd
  · cases h' with
    | option hp => exact h _ hp x d h'' hd

/-- The text does not mention renamed variables. -/
def TextKept (E : Env W) (ρ : Str → Str) (s : Str) : Prop :=
  ∀ c, E.parse s = .ok c → TextsKeep E ρ c ∧ c.rename ρ = c

/-- The variables of the context. -/
def VarsKeep (E : Env W) (ρ : Str → Str) (ctx : Ctx) : Prop := ∀ b ∈ ctx.vars, TextsKeep E ρ b.2

/-- Paths of wildcards. -/
def Path.rename (ρ : Str → Str) : Prompt → Prompt
  | .inl s => .inl s
  | .inr c => .inr (c.rename ρ)

def PathKeeps (E : Env W) (ρ : Str → Str) : Prompt → Prop
  | .inl s => TextKept E ρ s
  | .inr c => TextsKeep E ρ c

theorem wild_rename (path : Prompt) (m : Option Method) (v : List (Str × Cmd)) :
    Cmd.rename ρ (.wild path m v) = .wild (Path.rename ρ path) m (Cmd.renameV ρ v) := by
  cases path <;> rfl

mutual
inductive RN (E : Env W) (ρ : Str → Str) : Gen → Gen → Prop
  | done : RN E ρ .done .done
  | start {ctx c} : VarsKeep E ρ ctx → TextsKeep E ρ c → RN E ρ (.start ctx c) (.start (ctx.rename ρ) (c.rename ρ))
  | rep {s} : RN E ρ (.rep s) (.rep s)
  | seqNF {sep gens gens'} : RNL E ρ gens gens' → RN E ρ (.seqNF sep gens) (.seqNF sep gens')
  | randVar {ctx opts lo hi sep} : VarsKeep E ρ ctx → (∀ p ∈ opts, TextsKeep E ρ p.1) →
      RN E ρ (.randVar ctx opts lo hi sep) (.randVar (ctx.rename ρ) (Cmd.renameO ρ opts) lo hi sep)
  | randWild {ctx items buf} : VarsKeep E ρ ctx → (∀ i ∈ items, TextKept E ρ i.content) →
      (∀ x ∈ buf, x ∈ items.map Item.content) → RN E ρ (.randWild ctx items buf) (.randWild (ctx.rename ρ) items buf)
  | zipWrap {wg ig wg' ig'} : RN E ρ wg wg' → RN E ρ ig ig' → RN E ρ (.zipWrap wg ig) (.zipWrap wg' ig')
  | cycVar {sep q q'} : RNAL E ρ q q' → RN E ρ (.cycVar sep q) (.cycVar sep q')
  | cycWild {q q'} : RNL E ρ q q' → RN E ρ (.cycWild q) (.cycWild q')
  | combSeq {sep coll fr coll' fr'} : RNC E ρ coll coll' → RNS E ρ fr fr' →
      RN E ρ (.combSeq sep coll fr) (.combSeq sep coll' fr')
  | combVar {ctx sep seen pend} : VarsKeep E ρ ctx → (∀ p ∈ pend, ∀ c ∈ p.2, TextsKeep E ρ c) →
      RN E ρ (.combVar ctx sep seen pend)
        (.combVar (ctx.rename ρ) sep seen (pend.map fun p => (p.1, p.2.map (Cmd.rename ρ))))
  | combVarIn {ctx sep seen pend b fr fr'} : VarsKeep E ρ ctx → (∀ p ∈ pend, ∀ c ∈ p.2, TextsKeep E ρ c) →
      RNP E ρ fr fr' → RN E ρ (.combVarIn ctx sep seen pend b fr)
        (.combVarIn (ctx.rename ρ) sep seen (pend.map fun p => (p.1, p.2.map (Cmd.rename ρ))) b fr')
  | combWild {ctx vals cur cur'} : VarsKeep E ρ ctx → (∀ v ∈ vals, TextKept E ρ v) → RN E ρ cur cur' →
      RN E ρ (.combWild ctx vals cur) (.combWild (ctx.rename ρ) vals cur')
  | combWrap {ctx inner wg wg'} : VarsKeep E ρ ctx → TextsKeep E ρ inner → RN E ρ wg wg' →
      RN E ρ (.combWrap ctx inner wg) (.combWrap (ctx.rename ρ) (inner.rename ρ) wg')
  | combWrapIn {ctx inner wg wg' w ig ig'} : VarsKeep E ρ ctx → TextsKeep E ρ inner → RN E ρ wg wg' → RN E ρ ig ig' →
      RN E ρ (.combWrapIn ctx inner wg w ig) (.combWrapIn (ctx.rename ρ) (inner.rename ρ) wg' w ig')
  | squash {g g'} : RN E ρ g g' → RN E ρ (.squash g) (.squash g')
inductive RNL (E : Env W) (ρ : Str → Str) : List Gen → List Gen → Prop
  | nil : RNL E ρ [] []
  | cons {g gs g' gs'} : RN E ρ g g' → RNL E ρ gs gs' → RNL E ρ (g :: gs) (g' :: gs')
inductive RNC (E : Env W) (ρ : Str → Str) : Coll → Coll → Prop
  | nil : RNC E ρ [] []
  | cons {c g g' v cs cs'} : RN E ρ g g' → RNC E ρ cs cs' → RNC E ρ ((c, g, v) :: cs) ((c.rename ρ, g', v) :: cs')
inductive RNA (E : Env W) (ρ : Str → Str) : Arr → Arr → Prop
  | done : RNA E ρ .done .done
  | start {ctx combo} : VarsKeep E ρ ctx → (∀ c ∈ combo, TextsKeep E ρ c) →
      RNA E ρ (.start ctx combo) (.start (ctx.rename ρ) (combo.map (Cmd.rename ρ)))
  | nil : RNA E ρ .nil .nil
  | node {g g' rest rest'} : RN E ρ g g' → RNA E ρ rest rest' → RNA E ρ (.node g rest) (.node g' rest')
inductive RNAL (E : Env W) (ρ : Str → Str) : List Arr → List Arr → Prop
  | nil : RNAL E ρ [] []
  | cons {g g' gs gs'} : RNA E ρ g g' → RNAL E ρ gs gs' → RNAL E ρ (g :: gs) (g' :: gs')
inductive RNS (E : Env W) (ρ : Str → Str) : SFrame → SFrame → Prop
  | done : RNS E ρ .done .done
  | start {ctx cs} : VarsKeep E ρ ctx → (∀ c ∈ cs, TextsKeep E ρ c) →
      RNS E ρ (.start ctx cs) (.start (ctx.rename ρ) (cs.map (Cmd.rename ρ)))
  | nf {c rest rest'} : RNS E ρ rest rest' → RNS E ρ (.nf c rest) (.nf (c.rename ρ) rest')
  | fin {ctx rest g g'} : VarsKeep E ρ ctx → (∀ c ∈ rest, TextsKeep E ρ c) → RN E ρ g g' →
      RNS E ρ (.fin ctx rest g) (.fin (ctx.rename ρ) (rest.map (Cmd.rename ρ)) g')
  | finIn {ctx rest g g' v cur cur'} : VarsKeep E ρ ctx → (∀ c ∈ rest, TextsKeep E ρ c) → RN E ρ g g' →
      RNS E ρ cur cur' → RNS E ρ (.finIn ctx rest g v cur) (.finIn (ctx.rename ρ) (rest.map (Cmd.rename ρ)) g' v cur')
inductive RNP (E : Env W) (ρ : Str → Str) : PFrame → PFrame → Prop
  | done : RNP E ρ .done .done
  | start {ctx cs} : VarsKeep E ρ ctx → (∀ c ∈ cs, TextsKeep E ρ c) →
      RNP E ρ (.start ctx cs) (.start (ctx.rename ρ) (cs.map (Cmd.rename ρ)))
  | nf {g g' rest rest'} : RN E ρ g g' → RNP E ρ rest rest' → RNP E ρ (.nf g rest) (.nf g' rest')
  | fin {ctx rest g g'} : VarsKeep E ρ ctx → (∀ c ∈ rest, TextsKeep E ρ c) → RN E ρ g g' →
      RNP E ρ (.fin ctx rest g) (.fin (ctx.rename ρ) (rest.map (Cmd.rename ρ)) g')
  | finIn {ctx rest g g' v cur cur'} : VarsKeep E ρ ctx → (∀ c ∈ rest, TextsKeep E ρ c) → RN E ρ g g' →
      RNP E ρ cur cur' → RNP E ρ (.finIn ctx rest g v cur) (.finIn (ctx.rename ρ) (rest.map (Cmd.rename ρ)) g' v cur')
end

theorem RNL.append {xs ys xs' ys' : List Gen} (hx : RNL E ρ xs xs') (hy : RNL E ρ ys ys') :
    RNL E ρ (xs ++ ys) (xs' ++ ys') := by
  match hx with
  | .nil => exact hy
  | .cons h h' => exact .cons h (RNL.append h' hy)

theorem RNAL.append {xs ys xs' ys' : List Arr} (hx : RNAL E ρ xs xs') (hy : RNAL E ρ ys ys') :
    RNAL E ρ (xs ++ ys) (xs' ++ ys') := by
  match hx with
  | .nil => exact hy
  | .cons h h' => exact .cons h (RNAL.append h' hy)

/-- Related answers. -/
def SameText {α γ δ : Type} (P : γ → δ → Prop) : Option (α × γ) → Option (α × δ) → Prop
  | none, none => True
  | some x, some y => y.1 = x.1 ∧ P x.2 y.2
  | _, _ => False

theorem SameText.cases {α γ δ : Type} {P : γ → δ → Prop} {x : Option (α × γ)} {y : Option (α × δ)}
    (h : SameText P x y) : (x = none ∧ y = none) ∨ ∃ v a b, x = some (v, a) ∧ y = some (v, b) ∧ P a b := by
  match x, y with
  | none, none => exact .inl ⟨rfl, rfl⟩
  | some (v, a), some (v', b) =>
    have e : v' = v := h.1
    subst e
    exact .inr ⟨_, _, _, rfl, rfl, h.2⟩
  | none, some _ => exact h.elim
  | some _, none => exact h.elim

section
variable (hρ : Function.Injective ρ) (hu : ∀ u, E.unknown = some u → u.rename ρ = u ∧ TextsKeep E ρ u)
include hρ hu

theorem chain_rename {vars : List (Str × Cmd)} {being : List Str} {c : Cmd} {o : Outcome}
    (h : Chain E.unknown vars being c o) :
    Chain E.unknown (Cmd.renameV ρ vars) (being.map ρ) (c.rename ρ) (renameOutcome ρ o) := by
  induction h with
  | target h => exact .target (not_access_rename h)
  | undefined h =>
    rw [access_rename]
    refine .undefined ⟨h.1, ?_⟩
    have h2 := h.2
    rw [lookup_rename hρ]
    cases hl : List.lookup _ vars with
    | some c => rw [hl] at h2; simp only [Option.map_some, rename_truthy]; exact h2
    | none =>
      rw [hl] at h2
      intro d' hd'
      obtain ⟨x, hx, rfl⟩ := Option.map_eq_some_iff.1 hd'
      rw [rename_truthy]; exact h2 x hx
  | loop hr hm =>
    rw [access_rename]
    exact .loop (resolves_rename hρ (fun x hx => (hu x hx).1) hr) ((mem_being hρ _).2 hm)
  | step hr hm _ ih =>
    rw [access_rename]
    exact .step (resolves_rename hρ (fun x hx => (hu x hx).1) hr) (fun h => hm ((mem_being hρ _).1 h)) ih

omit hρ in
theorem chain_keeps {vars : List (Str × Cmd)} {being b : List Str} {c c' : Cmd} {o : Outcome}
    (hv : ∀ b ∈ vars, TextsKeep E ρ b.2) (hc : TextsKeep E ρ c)
    (h : Chain E.unknown vars being c o) (ho : o = .target b c') : TextsKeep E ρ c' := by
  induction h with
  | target _ => cases ho; exact hc
  | undefined _ => cases ho
  | loop _ _ => cases ho
  | step hr _ _ ih =>
    refine ih ?_ ho
    cases hr with
    | var h _ => exact hv _ (mem_of_lookup h)
    | default _ _ => exact texts_part hc .default
    | unknownEmpty _ _ h => exact (hu _ h).2
    | unknownEmptyDefault _ _ h => exact (hu _ h).2
    | unknown _ h => exact (hu _ h).2

theorem mkGen_RN {ctx : Ctx} {c : Cmd} (hctx : VarsKeep E ρ ctx) (hc : TextsKeep E ρ c) :
    LiftMirror ρ (RN E ρ) (mkGen E.unknown ctx c) (mkGen E.unknown (ctx.rename ρ) (c.rename ρ)) := by
  obtain ⟨o, ho⟩ := chain_total E.unknown ctx.vars ctx.being c
  rw [mkGen_outcome ho, mkGen_outcome (ctx := ctx.rename ρ) (chain_rename hρ hu ho)]
  cases o with
  | undefined n => exact rfl
  | recursion n => exact rfl
  | target b c' =>
    have hk := chain_keeps hu hctx hc ho rfl
    have key : RN E ρ (.start ⟨effMethod ctx.method c'.method, ctx.vars, b⟩ c')
        (.start ⟨effMethod ctx.method (c'.rename ρ).method, Cmd.renameV ρ ctx.vars, b.map ρ⟩ (c'.rename ρ)) := by
      rw [rename_method]
      exact .start (ctx := ⟨effMethod ctx.method c'.method, ctx.vars, b⟩) hctx hk
    rcases c' with _ | _ | _ | ⟨_ | _, _, _⟩ | _ | ⟨_, _ | _⟩ | ⟨_, _, m⟩
    case wrap =>
      simp only [outcomeGen, renameOutcome, Cmd.rename, Cmd.method] at key ⊢
      show LiftMirror ρ (RN E ρ) (if effMethod ctx.method m = .cyc then _ else _)
        (if effMethod ctx.method m = .cyc then _ else _)
      split
      · exact rfl
      · exact key
    all_goals first | exact key | exact rfl

theorem mkGens_RN {ctx : Ctx} {cs : List Cmd} (hctx : VarsKeep E ρ ctx) (hc : ∀ c ∈ cs, TextsKeep E ρ c) :
    LiftMirror ρ (RNL E ρ) (mkGens E.unknown ctx cs) (mkGens E.unknown (ctx.rename ρ) (cs.map (Cmd.rename ρ))) := by
  induction cs with
  | nil => exact .nil
  | cons c cs ih =>
    simp only [mkGens, List.map_cons]
    rcases (mkGen_RN hρ hu hctx (hc c (by simp))).cases with ⟨e, h1, h2⟩ | ⟨g, g', h1, h2, h3⟩
    · rw [h1, h2]; exact rfl
    · rw [h1, h2]
      rcases (ih fun c h => hc c (by simp [h])).cases with ⟨e, h4, h5⟩ | ⟨gs, gs', h4, h5, h6⟩
      · simp only [h4, h5]; exact rfl
      · simp only [h4, h5]; exact .cons h3 h6

variable (hp : ∀ s e, E.parse s = .error e → e.rename ρ = e)
include hp

theorem sampleGen_RN {ctx : Ctx} {p : Prompt} (hctx : VarsKeep E ρ ctx) (hpath : PathKeeps E ρ p) :
    LiftMirror ρ (RN E ρ) (sampleGen E ctx p) (sampleGen E (ctx.rename ρ) (Path.rename ρ p)) := by
  have key : ∀ c, TextsKeep E ρ c → LiftMirror ρ (RN E ρ) (match mkGen E.unknown ctx c with
        | .error e => .error e
        | .ok g => .ok (if E.ignoreWs then .squash g else g) : Except Err Gen)
      (match mkGen E.unknown (ctx.rename ρ) (c.rename ρ) with
        | .error e => .error e
        | .ok g => .ok (if E.ignoreWs then .squash g else g) : Except Err Gen) := by
    intro c hc
    rcases (mkGen_RN hρ hu hctx hc).cases with ⟨e, h1, h2⟩ | ⟨g, g', h1, h2, h3⟩
    · rw [h1, h2]; exact rfl
    · rw [h1, h2]
      cases E.ignoreWs
      · exact h3
      · exact .squash h3
  cases p with
  | inl s =>
    simp only [sampleGen, Path.rename]
    by_cases hs : s.isEmpty = true
    · rw [if_pos hs, if_pos hs]; exact .done
    · rw [if_neg hs, if_neg hs]
      cases h1 : E.parse s with
      | error e => exact (hp s e h1).symm
      | ok c =>
        have := key c (hpath c h1).1
        rw [(hpath c h1).2] at this
        exact this
  | inr c =>
    simp only [sampleGen, Path.rename, rename_truthy]
    cases h : c.truthy
    · exact .done
    · exact key c hpath

theorem sampleGens_RN {ctx : Ctx} {ps : List Str} (hctx : VarsKeep E ρ ctx) (hps : ∀ p ∈ ps, TextKept E ρ p) :
    LiftMirror ρ (RNL E ρ) (sampleGens E ctx ps) (sampleGens E (ctx.rename ρ) ps) := by
  induction ps with
  | nil => exact .nil
  | cons s ps ih =>
    simp only [sampleGens]
    rcases (sampleGen_RN hρ hu hp hctx (p := .inl s) (hps s (by simp))).cases with ⟨e, h1, h2⟩ | ⟨g, g', h1, h2, h3⟩
    · rw [h1, show sampleGen E (ctx.rename ρ) (.inl s) = _ from h2]; exact rfl
    · rw [h1, show sampleGen E (ctx.rename ρ) (.inl s) = _ from h2]
      rcases (ih fun c h => hps c (by simp [h])).cases with ⟨e, h4, h5⟩ | ⟨gs, gs', h4, h5, h6⟩
      · simp only [h4, h5]; exact rfl
      · simp only [h4, h5]; exact .cons h3 h6
end

/-! ### Lockstep -/

structure RecsRN (E : Env W) (ρ : Str → Str) (r : Recs W) : Prop where
  good : Good E r
  G : ∀ g g', RN E ρ g g' → Mirror ρ (SameText (RN E ρ)) (r.G g) (r.G g')
  A : ∀ a a', RNA E ρ a a' → Mirror ρ (SameText (RNA E ρ)) (r.A a) (r.A a')
  S : ∀ coll coll' fr fr', RNC E ρ coll coll' → RNS E ρ fr fr' →
    Mirror ρ (fun x y => RNC E ρ x.1 y.1 ∧ SameText (RNS E ρ) x.2 y.2) (r.S coll fr) (r.S coll' fr')
  P : ∀ fr fr', RNP E ρ fr fr' → Mirror ρ (SameText (RNP E ρ)) (r.P fr) (r.P fr')

section
variable (hρ : Function.Injective ρ) (hu : ∀ u, E.unknown = some u → u.rename ρ = u ∧ TextsKeep E ρ u)
  (hp : ∀ s e, E.parse s = .error e → e.rename ρ = e)
  (hm : ∀ wc w e w', E.getValues wc w = .err e w' → e.rename ρ = e) {r : Recs W} (hr : RecsRN E ρ r)
include hr

theorem next!_RN {g g' : Gen} (hg : RN E ρ g g') :
    Mirror ρ (fun x y => y.1 = x.1 ∧ RN E ρ x.2 y.2) (r.next! g) (r.next! g') := by
  unfold Recs.next!
  refine (hr.G g g' hg).bind fun a b hab => ?_
  rcases hab.cases with ⟨rfl, rfl⟩ | ⟨v, x, y, rfl, rfl, h⟩
  · exact .raise rfl
  · exact .pure ⟨rfl, h⟩

theorem rotate_RN {gs gs' : List Gen} (hg : RNL E ρ gs gs') :
    Mirror ρ (fun x y => y.1 = x.1 ∧ RNL E ρ x.2 y.2) (r.rotate gs) (r.rotate gs') := by
  match hg with
  | .nil => exact .pure ⟨rfl, .nil⟩
  | .cons h h' =>
    unfold Recs.rotate
    exact (next!_RN hr h).bind fun x y hx => (rotate_RN h').bind fun x' y' hy =>
      .pure ⟨by simp only [hx.1, hy.1], .cons hx.2 hy.2⟩

include hρ hu hp

theorem sampleFirst_RN {ctx : Ctx} {p : Prompt} (hctx : VarsKeep E ρ ctx) (hpath : PathKeeps E ρ p) :
    Mirror ρ (fun a b => a = b ∧ Named E p a) (r.sampleFirst E ctx p)
      (r.sampleFirst E (ctx.rename ρ) (Path.rename ρ p)) := by
  refine Mirror.knowing ?_ fun w a w' h => ⟨_, sampleFirst_good hr.good h⟩
  unfold Recs.sampleFirst
  exact (Mirror.lift (sampleGen_RN hρ hu hp hctx hpath)).bind fun g g' hg =>
    (next!_RN hr hg).bind fun x y hx => .pure hx.1.symm

omit hp in
theorem assign_RN {ctx : Ctx} (hctx : VarsKeep E ρ ctx) (name : Str) {value : Cmd} (i o : Bool)
    (hv : TextsKeep E ρ value) :
    Mirror ρ (fun a b => b = a.rename ρ ∧ TextsKeep E ρ a) (r.assign E ctx name value i o)
      (r.assign E (ctx.rename ρ) (ρ name) (value.rename ρ) i o) := by
  unfold Recs.assign
  have e : (if o = true then none else List.lookup (ρ name) (ctx.rename ρ).vars) =
      (if o = true then none else List.lookup name ctx.vars).map (Cmd.rename ρ) := by
    split
    · rfl
    · exact lookup_rename hρ _ _
  rw [e]
  cases h : (if o = true then none else List.lookup name ctx.vars) with
  | some v =>
    refine .pure ⟨rfl, ?_⟩
    split at h
    · cases h
    · exact hctx _ (mem_of_lookup h)
  | none =>
    cases i with
    | false => exact .pure ⟨rfl, hv⟩
    | true =>
      simp only [if_true, Option.map_none]
      have key : Mirror ρ (fun a b => b = a.rename ρ ∧ TextsKeep E ρ a) (do
          let g ← M.lift (mkGen E.unknown ctx value)
          let (v, _) ← r.next! g
          return Cmd.lit v none) (do
          let g ← M.lift (mkGen E.unknown (ctx.rename ρ) (value.rename ρ))
          let (v, _) ← r.next! g
          return Cmd.lit v none) :=
        (Mirror.lift (mkGen_RN hρ hu hctx hv)).bind fun g g' hg =>
          (next!_RN hr hg).bind fun x y hx => .pure ⟨by rw [hx.1]; rfl, texts_lit⟩
      rcases value with _ | _ | _ | ⟨_ | _, _, _⟩ | _ | ⟨_, _ | _⟩ | _ <;>
        first | exact Mirror.pure ⟨rfl, hv⟩ | exact key

omit hp in
theorem assigns_RN {ctx : Ctx} (hctx : VarsKeep E ρ ctx) {cs : List Cmd} (hcs : ∀ c ∈ cs, TextsKeep E ρ c) :
    Mirror ρ (fun x y => y = (x.1.map (Cmd.rename ρ), Cmd.renameV ρ x.2) ∧ (∀ c ∈ x.1, TextsKeep E ρ c) ∧
        ∀ b ∈ x.2, TextsKeep E ρ b.2) (r.assigns E ctx cs) (r.assigns E (ctx.rename ρ) (cs.map (Cmd.rename ρ))) := by
  induction cs with
  | nil => exact .pure ⟨rfl, by simp⟩
  | cons c cs ih =>
    have ih := ih fun c h => hcs c (by simp [h])
    have hc := hcs c (by simp)
    have tok : Mirror ρ (fun x y => y = (x.1.map (Cmd.rename ρ), Cmd.renameV ρ x.2) ∧ (∀ c ∈ x.1, TextsKeep E ρ c) ∧
        ∀ b ∈ x.2, TextsKeep E ρ b.2) (do
          let (toks, new) ← r.assigns E ctx cs
          return (c :: toks, new)) (do
          let (toks, new) ← r.assigns E (ctx.rename ρ) (cs.map (Cmd.rename ρ))
          return (c.rename ρ :: toks, new)) := by
      refine ih.bind fun x y hxy => .pure ?_
      obtain ⟨rfl, h1, h2⟩ := hxy
      refine ⟨rfl, ?_, h2⟩
      intro x hx
      rcases List.mem_cons.1 hx with rfl | hx
      · exact hc
      · exact h1 x hx
    rcases c with _ | _ | _ | ⟨_ | _, _, _⟩ | ⟨n, v, i, o⟩ | ⟨_, _ | _⟩ | _
    case assign =>
      simp only [Recs.assigns, List.map_cons, Cmd.rename]
      refine (assign_RN hρ hu hr hctx n i o (texts_part hc .assigned)).bind fun a b hab => ih.bind fun x y hxy => .pure ?_
      obtain ⟨rfl, ha⟩ := hab
      obtain ⟨rfl, h1, h2⟩ := hxy
      refine ⟨?_, h1, ?_⟩
      · simp [renameV_map]
      · intro x hx
        rcases List.mem_append.1 hx with hx | hx
        · exact h2 x hx
        · simp only [List.mem_singleton] at hx; subst hx; exact ha
    all_goals exact tok

omit hρ hu hp in
theorem firstValues_RN {cs : List Cmd} {gs gs' : List Gen} (h : RNL E ρ gs gs') :
    Mirror ρ (RNC E ρ) (r.firstValues (cs.zip gs)) (r.firstValues ((cs.map (Cmd.rename ρ)).zip gs')) := by
  match cs, h with
  | [], _ => exact .pure .nil
  | c :: cs, .nil => exact .pure .nil
  | c :: cs, .cons h h' =>
    simp only [List.map_cons, List.zip_cons_cons, Recs.firstValues]
    exact (next!_RN hr h).bind fun x y hx => (firstValues_RN h').bind fun a b hab => .pure (by
      rw [hx.1]; exact .cons hx.2 hab)

omit hp in
theorem mkColl_RN {ctx : Ctx} (hctx : VarsKeep E ρ ctx) {cs : List Cmd} (hcs : ∀ c ∈ cs, TextsKeep E ρ c) :
    Mirror ρ (RNC E ρ) (r.mkColl E ctx cs) (r.mkColl E (ctx.rename ρ) (cs.map (Cmd.rename ρ))) := by
  unfold Recs.mkColl
  exact (Mirror.lift (mkGens_RN hρ hu hctx hcs)).bind fun gs gs' hgs => firstValues_RN hr hgs

omit hu hp in
theorem getValue_RN (c : Cmd) {coll coll' : Coll} (h : RNC E ρ coll coll') :
    Mirror ρ (fun x y => y.1 = x.1 ∧ RNC E ρ x.2 y.2) (r.getValue c coll) (r.getValue (c.rename ρ) coll') := by
  match h with
  | .nil => exact .raise rfl
  | .cons (c := c') (g := g) (v := v) h1 h2 =>
    unfold Recs.getValue
    by_cases hc : c' = c
    · subst hc
      simp only [if_true]
      refine (hr.G _ _ h1).bind fun x y hx => ?_
      rcases hx.cases with ⟨rfl, rfl⟩ | ⟨v, x, y, rfl, rfl, h⟩
      · exact .pure ⟨rfl, .cons .done h2⟩
      · exact .pure ⟨rfl, .cons h h2⟩
    · have hc' : c'.rename ρ ≠ c.rename ρ := fun e => hc (rename_injective hρ e)
      simp only [hc, hc', if_false]
      exact (getValue_RN c h2).bind fun x y hx => .pure ⟨hx.1, .cons h1 hx.2⟩

omit hρ hu hp hr in
theorem mapM_parse_RN (hp : ∀ s e, E.parse s = .error e → e.rename ρ = e) {l : List Str} (hl : ∀ v ∈ l, TextKept E ρ v) :
    LiftMirror ρ (fun a b => a = b ∧ Cmd.renameO ρ a = a ∧ ∀ p ∈ a, TextsKeep E ρ p.1)
      (l.mapM (fun v => (E.parse v).map (fun c => (c, (1 : Rat)))))
      (l.mapM (fun v => (E.parse v).map (fun c => (c, (1 : Rat))))) := by
  induction l with
  | nil => exact ⟨rfl, rfl, by simp⟩
  | cons v l ih =>
    rw [List.mapM_cons]
    cases h1 : E.parse v with
    | error e => exact (hp v e h1).symm
    | ok c =>
      have ih := ih fun v h => hl v (by simp [h])
      cases h2 : l.mapM (fun v => (E.parse v).map (fun c => (c, (1 : Rat)))) with
      | error e => rw [h2] at ih; exact ih
      | ok o =>
        rw [h2] at ih
        obtain ⟨-, h3, h4⟩ := ih
        obtain ⟨h5, h6⟩ := hl v (by simp) c h1
        refine ⟨rfl, by show (c.rename ρ, (1 : Rat)) :: Cmd.renameO ρ o = _; rw [h6, h3], ?_⟩
        intro p hp
        rcases List.mem_cons.1 hp with rfl | hp
        · exact h5
        · exact h4 p hp

omit hρ hu hp hr in
theorem wild_values_kept {path : Prompt} {m : Option Method} {v : List (Str × Cmd)}
    (hc : TextsKeep E ρ (.wild path m v)) {items : List Item} (hi : ValuesOK E path items) :
    ∀ i ∈ items, TextKept E ρ i.content := by
  intro i hi' c hpc
  obtain ⟨wc, hn, hwc⟩ := hi
  exact ⟨texts_part hc (.value hn hwc hi' hpc), hc _ _ .refl (.value hn hwc hi' hpc)⟩

omit hρ hu hp hr in
theorem wild_texts_kept {path : Prompt} {m : Option Method} {v : List (Str × Cmd)}
    (hc : TextsKeep E ρ (.wild path m v)) {items : List Item} (hi : ValuesOK E path items) :
    ∀ x ∈ iterateWeighted items, TextKept E ρ x := by
  intro x hx
  obtain ⟨i, hi', rfl⟩ := mem_iterateWeighted hx
  exact wild_values_kept hc hi i hi'

omit hρ hu hp hr in
theorem wild_path_kept {path : Prompt} {m : Option Method} {v : List (Str × Cmd)}
    (hc : TextsKeep E ρ (.wild path m v)) : PathKeeps E ρ path := by
  cases path with
  | inl s => exact fun c h => ⟨texts_part hc (.pathText h), hc _ _ .refl (.name h)⟩
  | inr c => exact texts_part hc .path

omit hρ hu hp hr in
theorem withVars_rename (ctx : Ctx) (new : List (Str × Cmd)) :
    (ctx.withVars new).rename ρ = (ctx.rename ρ).withVars (Cmd.renameV ρ new) := by
  simp [Ctx.rename, Ctx.withVars, renameV_append]

omit hρ hu hp hr in
theorem VarsKeep.withVars {ctx : Ctx} (h : VarsKeep E ρ ctx) {new : List (Str × Cmd)}
    (hn : ∀ b ∈ new, TextsKeep E ρ b.2) : VarsKeep E ρ (ctx.withVars new) := by
  intro b hb
  rcases List.mem_append.1 hb with hb | hb
  · exact hn b hb
  · exact h b hb

omit hρ hu hp hr in
theorem combos_keep {opts : List (Cmd × Rat)} (h : ∀ p ∈ opts, TextsKeep E ρ p.1) (lo hi : Int) :
    ∀ p ∈ boundCombos (opts.map (·.1)) lo hi, ∀ c ∈ p.2, TextsKeep E ρ c := by
  intro p hp c hcp
  simp only [boundCombos, List.mem_flatMap, List.mem_map] at hp
  obtain ⟨b, -, cs, hcs, rfl⟩ := hp
  obtain ⟨q, hq, rfl⟩ := List.mem_map.1 ((mem_getCombos.1 hcs).2.2 c hcp)
  exact h q hq

omit hu hp hr in
theorem combos_renamed (opts : List (Cmd × Rat)) (lo hi : Int) :
    boundCombos ((Cmd.renameO ρ opts).map (·.1)) lo hi =
      (boundCombos (opts.map (·.1)) lo hi).map fun p => (p.1, p.2.map (Cmd.rename ρ)) := by
  rw [← boundCombos_renamed (rename_injective hρ), renameO_map, List.map_map, List.map_map]
  rfl

omit hρ hu hp hr in
theorem arrs_RN {ctx : Ctx} (hctx : VarsKeep E ρ ctx) {l : List (Nat × List Cmd)}
    (hl : ∀ p ∈ l, ∀ c ∈ p.2, TextsKeep E ρ c) :
    RNAL E ρ (l.map fun p => Arr.start ctx p.2)
      ((l.map fun p => (p.1, p.2.map (Cmd.rename ρ))).map fun p => Arr.start (ctx.rename ρ) p.2) := by
  induction l with
  | nil => exact .nil
  | cons a l ih => exact .cons (.start hctx (hl a (by simp))) (ih fun p h => hl p (by simp [h]))

omit hρ hu hp hr in
include hm in
theorem getValues_RN {path : Prompt} {wc : Str} (hn : Named E path wc) :
    Mirror ρ (fun a b => a = b ∧ ValuesOK E path a) (E.getValues wc) (E.getValues wc) :=
  (Mirror.self fun w e w' h => hm wc w e w' h).knowing fun w a w' h => ⟨wc, hn, w, w', h⟩

include hm

theorem variant_RN {ctx : Ctx} (hctx : VarsKeep E ρ ctx) {opts : List (Cmd × Rat)} {lo hi : Int} {sep : Str}
    {m : Option Method} (hc : TextsKeep E ρ (.variant opts lo hi sep m)) :
    Mirror ρ (RN E ρ) (startG E r ctx (.variant opts lo hi sep m))
      (startG E r (ctx.rename ρ) (.variant (Cmd.renameO ρ opts) lo hi sep m)) := by
  have hopts : ∀ p ∈ opts, TextsKeep E ρ p.1 := fun p h => texts_part hc (.option h)
  have several : ∀ n : Nat, Mirror ρ (RN E ρ)
      (match ctx.method with
        | .random => pure (.randVar ctx opts lo hi sep)
        | .cyc => pure (.cycVar sep ((boundCombos (opts.map (·.1)) (adjustBounds n lo hi).1 (adjustBounds n lo hi).2).map
            (fun p => Arr.start ctx p.2)))
        | .comb => pure (.combVar ctx sep [] (boundCombos (opts.map (·.1)) (adjustBounds n lo hi).1
            (adjustBounds n lo hi).2)) : M W Gen)
      (match ctx.method with
        | .random => pure (.randVar (ctx.rename ρ) (Cmd.renameO ρ opts) lo hi sep)
        | .cyc => pure (.cycVar sep ((boundCombos ((Cmd.renameO ρ opts).map (·.1)) (adjustBounds n lo hi).1
            (adjustBounds n lo hi).2).map (fun p => Arr.start (ctx.rename ρ) p.2)))
        | .comb => pure (.combVar (ctx.rename ρ) sep [] (boundCombos ((Cmd.renameO ρ opts).map (·.1))
            (adjustBounds n lo hi).1 (adjustBounds n lo hi).2)) : M W Gen) := by
    intro n
    cases ctx.method with
    | random => exact .pure (.randVar hctx hopts)
    | cyc =>
      rw [combos_renamed hρ]
      exact .pure (.cycVar (arrs_RN hctx (combos_keep hopts _ _)))
    | comb =>
      rw [combos_renamed hρ]
      exact .pure (.combVar hctx (combos_keep hopts _ _))
  match opts, hopts, several with
  | [], _, _ => exact .pure .done
  | [(c, x)], hopts, several =>
    have hc := hopts _ (List.mem_cons_self ..)
    by_cases hw : ∃ path m' v, c = .wild path m' v
    · obtain ⟨path, m', v, rfl⟩ := hw
      simp only [Cmd.renameO, wild_rename, startG]
      unfold Recs.wildcardToVariant
      refine Mirror.bind (P := fun a b => b = a.rename ρ ∧ TextsKeep E ρ a) ?_ fun a b hab => ?_
      · refine (sampleFirst_RN hρ hu hp hr hctx (wild_path_kept hc)).bind fun wc wc' hwc => ?_
        obtain ⟨rfl, hn⟩ := hwc
        refine (getValues_RN hm hn).bind fun items items' hit => ?_
        obtain ⟨rfl, hit⟩ := hit
        refine (Mirror.lift (mapM_parse_RN hp (wild_texts_kept hc hit))).bind fun o o' ho => ?_
        obtain ⟨rfl, h1, h2⟩ := ho
        refine .pure ⟨?_, texts_variant h2⟩
        simp only [Cmd.mkVariant, Cmd.rename, h1]
      · obtain ⟨rfl, ha⟩ := hab
        exact .pure (.start hctx ha)
    · have e : startG E r ctx (.variant [(c, x)] lo hi sep m) =
          (match ctx.method with
          | .random => M.lift (mkGen E.unknown ctx c)
          | .cyc => pure (.cycVar sep ((boundCombos [c] (adjustBounds 1 lo hi).1 (adjustBounds 1 lo hi).2).map
              (fun p => Arr.start ctx p.2)))
          | .comb => pure (.combVar ctx sep [] (boundCombos [c] (adjustBounds 1 lo hi).1 (adjustBounds 1 lo hi).2))) := by
        cases c <;> first | rfl | exact absurd ⟨_, _, _, rfl⟩ hw
      have e' : startG E r (ctx.rename ρ) (.variant [(c.rename ρ, x)] lo hi sep m) =
          (match ctx.method with
          | .random => M.lift (mkGen E.unknown (ctx.rename ρ) (c.rename ρ))
          | .cyc => pure (.cycVar sep ((boundCombos [c.rename ρ] (adjustBounds 1 lo hi).1 (adjustBounds 1 lo hi).2).map
              (fun p => Arr.start (ctx.rename ρ) p.2)))
          | .comb => pure (.combVar (ctx.rename ρ) sep [] (boundCombos [c.rename ρ] (adjustBounds 1 lo hi).1
              (adjustBounds 1 lo hi).2))) := by
        rcases c with _ | _ | _ | ⟨_ | _, _, _⟩ | _ | ⟨_, _ | _⟩ | _ <;> first | rfl | exact absurd ⟨_, _, _, rfl⟩ hw
      show Mirror ρ (RN E ρ) _ (startG E r (ctx.rename ρ) (.variant [(c.rename ρ, x)] lo hi sep m))
      rw [e, e']
      have := several 1
      cases hme : ctx.method with
      | random => exact .lift (mkGen_RN hρ hu hctx hc)
      | cyc => rw [hme] at this; exact this
      | comb => rw [hme] at this; exact this
  | a :: b :: opts, _, several =>
    have := several (a :: b :: opts).length
    have h1 : ∀ (ctx : Ctx) (a b : Cmd × Rat) (l : List (Cmd × Rat)), startG E r ctx (.variant (a :: b :: l) lo hi sep m) =
        (match ctx.method with
        | .random => pure (.randVar ctx (a :: b :: l) lo hi sep)
        | .cyc => pure (.cycVar sep ((boundCombos ((a :: b :: l).map (·.1)) (adjustBounds (a :: b :: l).length lo hi).1
            (adjustBounds (a :: b :: l).length lo hi).2).map (fun p => Arr.start ctx p.2)))
        | .comb => pure (.combVar ctx sep [] (boundCombos ((a :: b :: l).map (·.1))
            (adjustBounds (a :: b :: l).length lo hi).1 (adjustBounds (a :: b :: l).length lo hi).2)) : M W Gen) := by
      intro ctx a b l
      obtain ⟨c, x⟩ := a
      cases c <;> rfl
    have e : Cmd.renameO ρ (a :: b :: opts) = (a.1.rename ρ, a.2) :: (b.1.rename ρ, b.2) :: Cmd.renameO ρ opts := rfl
    have hl : ((a.1.rename ρ, a.2) :: (b.1.rename ρ, b.2) :: Cmd.renameO ρ opts).length = (a :: b :: opts).length := by
      simp [renameO_map]
    rw [e] at this ⊢
    rw [h1, h1, hl]
    exact this

theorem startG_RN {ctx : Ctx} (hctx : VarsKeep E ρ ctx) {c : Cmd} (hc : TextsKeep E ρ c) :
    Mirror ρ (RN E ρ) (startG E r ctx c) (startG E r (ctx.rename ρ) (c.rename ρ)) := by
  cases c with
  | lit t m => exact .pure .rep
  | variant opts lo hi sep m => exact variant_RN hρ hu hp hm hr hctx hc
  | seq toks sep m =>
    simp only [Cmd.rename, startG, renameL_map]
    refine (assigns_RN hρ hu hr hctx fun c h => texts_part hc (.token h)).bind fun a b hab => ?_
    obtain ⟨toks', new⟩ := a
    obtain ⟨rfl, h1, h2⟩ := hab
    have hctx' := hctx.withVars h2
    have key : Mirror ρ (RN E ρ) (do
          let gens ← M.lift (mkGens E.unknown (ctx.withVars new) toks')
          return .seqNF sep gens : M W Gen) (do
          let gens ← M.lift (mkGens E.unknown ((ctx.rename ρ).withVars (Cmd.renameV ρ new)) (toks'.map (Cmd.rename ρ)))
          return .seqNF sep gens) := by
      rw [← withVars_rename]
      exact (Mirror.lift (mkGens_RN hρ hu hctx' h1)).bind fun gs gs' hgs => .pure (.seqNF hgs)
    show Mirror ρ (RN E ρ) (match ctx.method with | .comb => _ | _ => _) (match ctx.method with | .comb => _ | _ => _)
    cases h : ctx.method with
    | random => exact key
    | cyc => exact key
    | comb =>
      have hf : (toks'.map (Cmd.rename ρ)).filter (fun c => c.method ≠ some .comb) =
          (toks'.filter fun c => c.method ≠ some .comb).map (Cmd.rename ρ) := by
        rw [List.filter_map]
        congr 1
        apply List.filter_congr
        intro x _
        simp [rename_method]
      show Mirror ρ (RN E ρ) _ (do
        let coll ← r.mkColl E ((ctx.rename ρ).withVars (Cmd.renameV ρ new))
          ((toks'.map (Cmd.rename ρ)).filter (fun c => c.method ≠ some .comb))
        return .combSeq sep coll (.start ((ctx.rename ρ).withVars (Cmd.renameV ρ new))
          (sentinel :: toks'.map (Cmd.rename ρ) ++ [sentinel])))
      rw [hf, ← withVars_rename]
      refine (mkColl_RN hρ hu hr hctx' fun c h => h1 c (List.mem_of_mem_filter h)).bind fun coll coll' hcoll => .pure ?_
      have e : sentinel :: toks'.map (Cmd.rename ρ) ++ [sentinel] =
          (sentinel :: toks' ++ [sentinel]).map (Cmd.rename ρ) := by
        simp [sentinel, Cmd.rename]
      rw [e]
      refine .combSeq hcoll (.start hctx' ?_)
      intro c hc
      simp only [List.cons_append, List.mem_cons, List.mem_append, List.not_mem_nil, or_false] at hc
      rcases hc with rfl | hc | rfl
      · exact texts_lit
      · exact h1 c hc
      · exact texts_lit
  | wild path m vars =>
    simp only [wild_rename, startG]
    refine (sampleFirst_RN hρ hu hp hr hctx (wild_path_kept hc)).bind fun wc wc' hwc => ?_
    obtain ⟨rfl, hn⟩ := hwc
    refine (getValues_RN hm hn).bind fun vals vals' hvals => ?_
    obtain ⟨rfl, hvals⟩ := hvals
    have hctx' : VarsKeep E ρ (ctx.withVars vars) := hctx.withVars fun b hb => texts_part hc (.param hb)
    rw [← withVars_rename]
    by_cases hv : vals.isEmpty = true
    · rw [if_pos hv, if_pos hv]
      unfold Recs.fallback
      refine Mirror.bind (P := Eq) ?_ fun v v' h => .pure (by rw [h]; exact .rep)
      cases path with
      | inl t => exact .pure rfl
      | inr c => exact (sampleFirst_RN hρ hu hp hr hctx' (p := .inr c) (wild_path_kept hc)).weaken fun _ _ h => h.1
    · rw [if_neg hv, if_neg hv]
      show Mirror ρ (RN E ρ) (match ctx.method with | .random => _ | .cyc => _ | .comb => _)
        (match ctx.method with | .random => _ | .cyc => _ | .comb => _)
      cases h : ctx.method with
      | random => exact .pure (.randWild hctx' (wild_values_kept hc hvals) (by simp))
      | comb => exact .pure (.combWild hctx' (wild_texts_kept hc hvals) .done)
      | cyc =>
        exact (Mirror.lift (sampleGens_RN hρ hu hp hctx' (wild_texts_kept hc hvals))).bind
          fun gs gs' hgs => .pure (.cycWild hgs)
  | assign => exact .raise rfl
  | access n d => rw [access_rename]; exact .raise rfl
  | wrap wr inn m =>
    simp only [Cmd.rename, startG]
    show Mirror ρ (RN E ρ) (match ctx.method with | .random => _ | .comb => _ | .cyc => _)
        (match ctx.method with | .random => _ | .comb => _ | .cyc => _)
    cases h : ctx.method with
    | random =>
      exact (Mirror.lift (mkGen_RN hρ hu hctx (texts_part hc .wrapper))).bind fun wg wg' hwg =>
        (Mirror.lift (mkGen_RN hρ hu hctx (texts_part hc .inner))).bind fun ig ig' hig => .pure (.zipWrap hwg hig)
    | cyc => exact .raise rfl
    | comb =>
      exact (Mirror.lift (sampleGen_RN hρ hu hp hctx (p := .inr wr) (texts_part hc .wrapper))).bind
        fun wg wg' hwg => .pure (.combWrap hctx (texts_part hc .inner) hwg)

theorem stepG_RN {g g' : Gen} (hg : RN E ρ g g') :
    Mirror ρ (SameText (RN E ρ)) (stepG E r g) (stepG E r g') := by
  cases hg with
  | done => exact .pure trivial
  | start hctx hc =>
    rename_i ctx c
    have key : Mirror ρ (SameText (RN E ρ)) (do let g ← startG E r ctx c; r.G g)
        (do let g ← startG E r (ctx.rename ρ) (c.rename ρ); r.G g) :=
      (startG_RN hρ hu hp hm hr hctx hc).bind fun g g' hg => hr.G g g' hg
    rcases c with ⟨t, m⟩ | _ | _ | ⟨_ | _, _, _⟩ | _ | ⟨_, _ | _⟩ | _
    case lit =>
      simp only [stepG, Cmd.rename]
      show Mirror ρ (SameText (RN E ρ)) (match ctx.method with | .comb => _ | _ => _) (match ctx.method with | .comb => _ | _ => _)
      cases h : ctx.method with
      | comb => exact .pure ⟨rfl, .done⟩
      | random => exact .pure ⟨rfl, .rep⟩
      | cyc => exact .pure ⟨rfl, .rep⟩
    all_goals exact key
  | rep => exact .pure ⟨rfl, .rep⟩
  | randVar hctx hopts =>
    rename_i ctx opts lo hi sep
    have e1 : (Cmd.renameO ρ opts).length = opts.length := by simp [renameO_map]
    have e2 : (Cmd.renameO ρ opts).map (·.1) = (opts.map (·.1)).map (Cmd.rename ρ) := by
      simp [renameO_map, List.map_map, Function.comp_def]
    have e3 : (Cmd.renameO ρ opts).map (·.2) = opts.map (·.2) := by
      simp [renameO_map, List.map_map, Function.comp_def]
    simp only [stepG, e1, e2, e3]
    refine (randint_mirror _ _ _).bind fun k k' hk => ?_
    subst hk
    refine ((choose_map E.rng (rename_injective hρ) _ _ _).knowing (Q := fun sel => ∀ c ∈ sel, TextsKeep E ρ c)
      fun w sel w' h c hc => ?_).bind fun sel sel' hsel => ?_
    · obtain ⟨p, hp, rfl⟩ := List.mem_map.1 ((choose_ok h).1.subset hc)
      exact hopts p hp
    · obtain ⟨rfl, hsel⟩ := hsel
      refine (Mirror.lift (mkGens_RN hρ hu hctx hsel)).bind fun gs gs' hgs => ?_
      cases hgs with
      | nil => exact .pure ⟨rfl, .randVar hctx hopts⟩
      | cons h h' =>
        exact (rotate_RN hr (.cons h h')).bind fun x y hx => .pure ⟨by simp only [hx.1], .randVar hctx hopts⟩
  | randWild hctx hi hbuf =>
    rename_i ctx items buf
    simp only [stepG]
    refine ((weightedNext_mirror E.rng items buf).knowing (Q := fun x => x.1 ∈ items.map Item.content ∧
      ∀ y ∈ x.2, y ∈ items.map Item.content) fun w x w1 h => weightedNext_ok h hbuf).bind fun x y hx => ?_
    obtain ⟨rfl, hx⟩ := hx
    obtain ⟨v, buf'⟩ := x
    obtain ⟨i, hi', rfl⟩ := List.mem_map.1 hx.1
    refine (Mirror.lift (sampleGen_RN hρ hu hp hctx (p := .inl i.content) (hi i hi'))).bind fun g g' hg =>
      (hr.G g g' hg).bind fun y y' hy => ?_
    rcases hy.cases with ⟨rfl, rfl⟩ | ⟨v, x, y, rfl, rfl, h⟩
    · exact hr.G _ _ (.randWild hctx hi hx.2)
    · exact .pure ⟨rfl, .randWild hctx hi hx.2⟩
  | zipWrap h1 h2 =>
    refine (hr.G _ _ h1).bind fun x x' hx => ?_
    rcases hx.cases with ⟨rfl, rfl⟩ | ⟨v, a, b, rfl, rfl, h⟩
    · exact .pure trivial
    · refine (hr.G _ _ h2).bind fun y y' hy => ?_
      rcases hy.cases with ⟨rfl, rfl⟩ | ⟨v', a', b', rfl, rfl, h'⟩
      · exact .pure trivial
      · exact .pure ⟨rfl, .zipWrap h h'⟩
  | seqNF h => exact (rotate_RN hr h).bind fun x y hx => .pure ⟨by simp only [hx.1], .seqNF hx.2⟩
  | cycVar h =>
    cases h with
    | nil => exact .diverge
    | cons h h' =>
      refine (hr.A _ _ h).bind fun x y hx => ?_
      rcases hx.cases with ⟨rfl, rfl⟩ | ⟨v, a, b, rfl, rfl, h1⟩
      · exact .raise rfl
      · exact .pure ⟨rfl, .cycVar (h'.append (.cons h1 .nil))⟩
  | cycWild h =>
    cases h with
    | nil => exact .pure trivial
    | cons h h' =>
      exact (next!_RN hr h).bind fun x y hx => .pure ⟨hx.1, .cycWild (h'.append (.cons hx.2 .nil))⟩
  | combSeq h1 h2 =>
    refine (hr.S _ _ _ _ h1 h2).bind fun x y hx => ?_
    obtain ⟨coll, x⟩ := x
    obtain ⟨coll', y⟩ := y
    rcases hx.2.cases with ⟨h, h'⟩ | ⟨v, a, b, h, h', h3⟩
    · dsimp only at h h'; subst h h'; exact .pure trivial
    · dsimp only at h h'; subst h h'; exact .pure ⟨rfl, .combSeq hx.1 h3⟩
  | combVar hctx hp =>
    rename_i ctx sep seen pend
    cases pend with
    | nil => exact .pure trivial
    | cons p pend =>
      exact hr.G _ _ (.combVarIn hctx (fun q h => hp q (by simp [h])) (.start hctx (hp p (by simp))))
  | combVarIn hctx hp hfr =>
    refine (hr.P _ _ hfr).bind fun x y hx => ?_
    rcases hx.cases with ⟨rfl, rfl⟩ | ⟨v, a, b, rfl, rfl, h⟩
    · exact hr.G _ _ (.combVar hctx hp)
    · dsimp only
      split
      · exact .pure ⟨rfl, .combVarIn hctx hp h⟩
      · exact hr.G _ _ (.combVarIn hctx hp h)
  | combWild hctx hv hcur =>
    rename_i ctx vals cur cur'
    refine (hr.G _ _ hcur).bind fun x y hx => ?_
    rcases hx.cases with ⟨rfl, rfl⟩ | ⟨v, a, b, rfl, rfl, h⟩
    · cases vals with
      | nil => exact .pure trivial
      | cons v vals =>
        exact (Mirror.lift (sampleGen_RN hρ hu hp hctx (p := .inl v) (hv v (by simp)))).bind
          fun g g' hg => hr.G _ _ (.combWild hctx (fun x h => hv x (by simp [h])) hg)
    · exact .pure ⟨rfl, .combWild hctx hv h⟩
  | combWrap hctx hi hw =>
    refine (hr.G _ _ hw).bind fun x y hx => ?_
    rcases hx.cases with ⟨rfl, rfl⟩ | ⟨v, a, b, rfl, rfl, h⟩
    · exact .pure trivial
    · exact (Mirror.lift (sampleGen_RN hρ hu hp hctx (p := .inr _) hi)).bind
        fun g g' hg => hr.G _ _ (.combWrapIn hctx hi h hg)
  | combWrapIn hctx hi hw hig =>
    refine (hr.G _ _ hig).bind fun x y hx => ?_
    rcases hx.cases with ⟨rfl, rfl⟩ | ⟨v, a, b, rfl, rfl, h⟩
    · exact hr.G _ _ (.combWrap hctx hi hw)
    · exact .pure ⟨rfl, .combWrapIn hctx hi hw h⟩
  | squash h =>
    refine (hr.G _ _ h).bind fun x y hx => ?_
    rcases hx.cases with ⟨rfl, rfl⟩ | ⟨v, a, b, rfl, rfl, h⟩
    · exact .pure trivial
    · exact .pure ⟨rfl, .squash h⟩

omit hp hm in
theorem stepA_RN {a a' : Arr} (ha : RNA E ρ a a') : Mirror ρ (SameText (RNA E ρ)) (stepA E r a) (stepA E r a') := by
  cases ha with
  | done => exact .pure trivial
  | nil => exact .pure ⟨rfl, .nil⟩
  | start hctx hc =>
    rename_i ctx combo
    cases combo with
    | nil => exact .pure ⟨rfl, .nil⟩
    | cons c cs =>
      exact (Mirror.lift (mkGen_RN hρ hu hctx (hc c (by simp)))).bind fun g g' hg =>
        hr.A _ _ (.node hg (.start hctx fun c h => hc c (by simp [h])))
  | node h1 h2 =>
    refine (hr.A _ _ h2).bind fun x y hx => ?_
    rcases hx.cases with ⟨rfl, rfl⟩ | ⟨v, a, b, rfl, rfl, h⟩
    · exact .pure trivial
    · refine (hr.G _ _ h1).bind fun x y hx => ?_
      rcases hx.cases with ⟨rfl, rfl⟩ | ⟨v', a', b', rfl, rfl, h'⟩
      · exact .pure ⟨rfl, .done⟩
      · exact .pure ⟨rfl, .node h' h⟩

omit hρ hu hp hr hm in
theorem effective_rename (ctx : Ctx) (c : Cmd) : (ctx.rename ρ).effective (c.rename ρ) = ctx.effective c := by
  unfold Ctx.effective
  rw [rename_method]
  rfl

omit hp hm in
theorem stepS_RN {coll coll' : Coll} {fr fr' : SFrame} (hcoll : RNC E ρ coll coll') (hfr : RNS E ρ fr fr') :
    Mirror ρ (fun x y => RNC E ρ x.1 y.1 ∧ SameText (RNS E ρ) x.2 y.2) (stepS E r coll fr) (stepS E r coll' fr') := by
  cases hfr with
  | done => exact .pure ⟨hcoll, trivial⟩
  | start hctx hc =>
    rename_i ctx cs
    cases cs with
    | nil => exact .pure ⟨hcoll, rfl, .done⟩
    | cons c cs =>
      have hcs : ∀ c ∈ cs, TextsKeep E ρ c := fun c h => hc c (by simp [h])
      simp only [stepS, List.map_cons, effective_rename]
      split
      · exact hr.S _ _ _ _ hcoll (.nf (.start hctx hcs))
      · exact (Mirror.lift (mkGen_RN hρ hu hctx (hc c (by simp)))).bind fun g g' hg =>
          hr.S _ _ _ _ hcoll (.fin hctx hcs hg)
  | nf h =>
    refine (hr.S _ _ _ _ hcoll h).bind fun x y hx => ?_
    obtain ⟨coll1, x⟩ := x
    obtain ⟨coll2, y⟩ := y
    rcases hx.2.cases with ⟨h1, h2⟩ | ⟨v, a, b, h1, h2, h3⟩
    · dsimp only at h1 h2; subst h1 h2; exact .pure ⟨hx.1, trivial⟩
    · dsimp only at h1 h2
      subst h1 h2
      refine (getValue_RN hρ hr _ hx.1).bind fun x y hxy => ?_
      obtain ⟨o, coll3⟩ := x
      obtain ⟨o', coll4⟩ := y
      obtain ⟨h4, h5⟩ := hxy
      dsimp only at h4 h5
      subst h4
      cases o' with
      | none => exact .pure ⟨h5, rfl, .nf h3⟩
      | some v => exact .pure ⟨h5, rfl, .nf h3⟩
  | fin hctx hc hg =>
    refine (hr.G _ _ hg).bind fun x y hx => ?_
    rcases hx.cases with ⟨rfl, rfl⟩ | ⟨v, a, b, rfl, rfl, h⟩
    · exact .pure ⟨hcoll, trivial⟩
    · exact hr.S _ _ _ _ hcoll (.finIn hctx hc h (.start hctx hc))
  | finIn hctx hc hg hcur =>
    refine (hr.S _ _ _ _ hcoll hcur).bind fun x y hx => ?_
    obtain ⟨coll1, x⟩ := x
    obtain ⟨coll2, y⟩ := y
    rcases hx.2.cases with ⟨h1, h2⟩ | ⟨v, a, b, h1, h2, h3⟩
    · dsimp only at h1 h2; subst h1 h2; exact hr.S _ _ _ _ hx.1 (.fin hctx hc hg)
    · dsimp only at h1 h2; subst h1 h2; exact .pure ⟨hx.1, rfl, .finIn hctx hc hg h3⟩

omit hp hm in
theorem stepP_RN {fr fr' : PFrame} (hfr : RNP E ρ fr fr') :
    Mirror ρ (SameText (RNP E ρ)) (stepP E r fr) (stepP E r fr') := by
  cases hfr with
  | done => exact .pure trivial
  | start hctx hc =>
    rename_i ctx cs
    cases cs with
    | nil => exact .pure ⟨rfl, .done⟩
    | cons c cs =>
      have hcs : ∀ c ∈ cs, TextsKeep E ρ c := fun c h => hc c (by simp [h])
      simp only [stepP, List.map_cons, effective_rename]
      refine (Mirror.lift (mkGen_RN hρ hu hctx (hc c (by simp)))).bind fun g g' hg => ?_
      split
      · exact hr.P _ _ (.nf hg (.start hctx hcs))
      · exact hr.P _ _ (.fin hctx hcs hg)
  | nf hg h =>
    refine (hr.P _ _ h).bind fun x y hx => ?_
    rcases hx.cases with ⟨rfl, rfl⟩ | ⟨v, a, b, rfl, rfl, h1⟩
    · exact .pure trivial
    · exact (next!_RN hr hg).bind fun x y hx => .pure ⟨by simp only [hx.1], .nf hx.2 h1⟩
  | fin hctx hc hg =>
    refine (hr.G _ _ hg).bind fun x y hx => ?_
    rcases hx.cases with ⟨rfl, rfl⟩ | ⟨v, a, b, rfl, rfl, h⟩
    · exact .pure trivial
    · exact hr.P _ _ (.finIn hctx hc h (.start hctx hc))
  | finIn hctx hc hg hcur =>
    refine (hr.P _ _ hcur).bind fun x y hx => ?_
    rcases hx.cases with ⟨rfl, rfl⟩ | ⟨v, a, b, rfl, rfl, h⟩
    · exact hr.P _ _ (.fin hctx hc hg)
    · exact .pure ⟨rfl, .finIn hctx hc hg h⟩

end

theorem recs_RN (hρ : Function.Injective ρ) (hu : ∀ u, E.unknown = some u → u.rename ρ = u ∧ TextsKeep E ρ u)
    (hp : ∀ s e, E.parse s = .error e → e.rename ρ = e)
    (hm : ∀ wc w e w', E.getValues wc w = .err e w' → e.rename ρ = e) (n : Nat) : RecsRN E ρ (recs E n) := by
  induction n with
  | zero => exact ⟨recs_good E 0, fun _ _ _ => .diverge, fun _ _ _ => .diverge, fun _ _ _ _ _ _ => .diverge,
      fun _ _ _ => .diverge⟩
  | succ n ih =>
    exact ⟨recs_good E (n + 1), fun g g' hg => stepG_RN hρ hu hp hm ih hg, fun a a' ha => stepA_RN hρ hu ih ha,
      fun coll coll' fr fr' h1 h2 => stepS_RN hρ hu ih h1 h2, fun fr fr' h => stepP_RN hρ hu ih h⟩

theorem collect_RN (hρ : Function.Injective ρ) (hu : ∀ u, E.unknown = some u → u.rename ρ = u ∧ TextsKeep E ρ u)
    (hp : ∀ s e, E.parse s = .error e → e.rename ρ = e)
    (hm : ∀ wc w e w', E.getValues wc w = .err e w' → e.rename ρ = e) (n k : Nat) {g g' : Gen}
    (hg : RN E ρ g g') (w : W) :
    (collect E n k g' w).1 = (collect E n k g w).1 ∧
      SameEndRenamed ρ (collect E n k g w).2 (collect E n k g' w).2 := by
  induction k generalizing g g' w with
  | zero => exact ⟨rfl, rfl⟩
  | succ k ih =>
    have h1 := (recs_RN hρ hu hp hm n).G g g' hg w
    simp only [collect, nextG]
    cases hx : (recs E n).G g w with
    | ok a w1 =>
      cases hy : (recs E n).G g' w with
      | ok b w2 =>
        rw [hx, hy] at h1
        obtain ⟨h2, rfl⟩ := h1
        rcases h2.cases with ⟨rfl, rfl⟩ | ⟨v, a, b, rfl, rfl, h⟩
        · exact ⟨rfl, rfl⟩
        · have := ih h w1
          exact ⟨by dsimp only; rw [this.1], this.2⟩
      | err e w2 => rw [hx, hy] at h1; exact h1.elim
      | fuel => rw [hx, hy] at h1; exact h1.elim
    | err e w1 =>
      cases hy : (recs E n).G g' w with
      | ok b w2 => rw [hx, hy] at h1; exact h1.elim
      | err e w2 => rw [hx, hy] at h1; exact ⟨rfl, h1⟩
      | fuel => rw [hx, hy] at h1; exact h1.elim
    | fuel =>
      cases hy : (recs E n).G g' w with
      | ok b w2 => rw [hx, hy] at h1; exact h1.elim
      | err e w2 => rw [hx, hy] at h1; exact h1.elim
      | fuel => exact ⟨rfl, trivial⟩

end
end Verif
