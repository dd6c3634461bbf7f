import Verif.Proofs.Comb
import Mathlib.Data.Nat.Factorial.Basic
import Mathlib.Data.List.Perm.Basic
/-! Facts about ordered selections and their enumeration for literal options. -/

namespace Verif
open Spec
variable {α : Type} [DecidableEq α]

theorem mem_selections {k : Nat} {l t : List α} : t ∈ selections k l ↔ t.length = k ∧ t.Nodup ∧ ∀ x ∈ t, x ∈ l := by
  rw [← getCombos_eq_selections]; exact mem_getCombos

theorem nodup_product {β : Type} {ls : List (List β)} (h : ∀ l ∈ ls, l.Nodup) : (product ls).Nodup := by
  induction ls with
  | nil => simp [product]
  | cons l ls ih =>
    rw [product, List.nodup_flatMap]
    refine ⟨fun x _ => ?_, ?_⟩
    · exact (ih fun l hl => h l (by simp [hl])).map (by intro a b h; simpa using h)
    · refine List.Pairwise.imp ?_ (h l (by simp))
      intro a b hab
      simp only [Function.onFun, List.disjoint_left, List.mem_map]
      rintro t ⟨x, -, rfl⟩ ⟨y, -, hy⟩
      exact hab (List.cons.inj hy).1.symm

theorem nodup_selections {k : Nat} {l : List α} (h : l.Nodup) : (selections k l).Nodup := by
  unfold selections
  refine (nodup_product ?_).filter _
  intro l' hl'
  rw [List.eq_of_mem_replicate hl']; exact h

theorem length_getCombos (k : Nat) (l : List α) (h : l.Nodup) :
    (getCombos k l).length = l.length.descFactorial k := by
  induction k generalizing l with
  | zero => simp [getCombos]
  | succ k ih =>
    rw [getCombos, List.length_flatMap]
    have : ∀ v ∈ l, ((getCombos k (l.filter fun u => u ≠ v)).map (v :: ·)).length =
        (l.length - 1).descFactorial k := by
      intro v hv
      rw [List.length_map, ih _ (h.filter _)]
      congr 1
      have := List.Nodup.erase_eq_filter h v
      have h2 : (l.filter fun u => u ≠ v) = l.erase v := by
        rw [this]; apply List.filter_congr; intro x _; by_cases h : x = v <;> simp [h]
      rw [h2, List.length_erase_of_mem hv]
    rw [List.map_congr_left (g := fun _ => (l.length - 1).descFactorial k) this]
    simp only [List.map_const', List.sum_replicate_nat]
    cases l with
    | nil => simp
    | cons a l => rw [List.length_cons, Nat.succ_descFactorial_succ]; simp

theorem length_selections (k : Nat) (l : List α) (h : l.Nodup) :
    (selections k l).length = l.length.descFactorial k := by
  rw [← getCombos_eq_selections, length_getCombos k l h]

theorem mem_sizes {n : Nat} {lo hi : Int} {k : Nat} : k ∈ sizes n lo hi ↔
    max 0 (min (min lo hi) n) ≤ (k : Int) ∧ (k : Int) ≤ min (max lo hi) n := by
  simp only [sizes, List.mem_filter, List.mem_range, decide_eq_true_eq]
  omega

theorem nodup_sizes (n : Nat) (lo hi : Int) : (sizes n lo hi).Nodup := List.nodup_range.filter _

theorem nodup_flat_selections {ks : List Nat} (hk : ks.Nodup) {l : List α} (h : l.Nodup) :
    (ks.flatMap fun k => selections k l).Nodup := by
  rw [List.nodup_flatMap]
  refine ⟨fun k _ => nodup_selections h, hk.imp ?_⟩
  intro a b hab
  simp only [Function.onFun, List.disjoint_left]
  intro t h1 h2
  exact hab ((mem_selections.1 h1).1.symm.trans (mem_selections.1 h2).1)

theorem product_singletons {β : Type} (l : List β) : product (l.map fun x => [x]) = [l] := by
  induction l with
  | nil => rfl
  | cons x l ih => simp [product, ih]

omit [DecidableEq α] in
theorem eraseDups_of_nodup [BEq α] [LawfulBEq α] {l : List α} (h : l.Nodup) : l.eraseDups = l := by
  induction l with
  | nil => rfl
  | cons a l ih =>
    rw [List.eraseDups_cons]
    have hn := List.nodup_cons.1 h
    have : (l.filter fun b => !b == a) = l := by
      rw [List.filter_eq_self]
      intro b hb
      have : b ≠ a := fun e => hn.1 (e ▸ hb)
      simpa using this
    rw [this, ih hn.2]

theorem enum_literals (ws : Bool) (ts : List Str) (hts : ts.Nodup) (hne : ts ≠ []) (wt : Str → Rat)
    (mo : Str → Option Method) (lo hi : Int) (sep : Str) (m : Option Method) :
    enum ws (.variant (ts.map fun t => (.lit t (mo t), wt t)) lo hi sep m) =
      ((sizes ts.length lo hi).flatMap fun k => selections k ts).map (joined sep) := by
  have hinj : Function.Injective (fun t : Str => ((.lit t (mo t), [t]) : Cmd × List Str)) := by
    intro a b h; simpa using (Prod.mk.inj h).2
  have h1 : enumO ws (ts.map fun t => (.lit t (mo t), wt t)) =
      ts.map fun t => ((.lit t (mo t), [t]) : Cmd × List Str) := by
    rw [enumO_eq]; simp [enum]
  rw [enum, if_neg (by simpa using hne), h1]
  simp only [selections_map _ hinj, List.length_map]
  have h2 : ((sizes ts.length lo hi).flatMap fun k =>
        (selections k ts).map (fun t => t.map fun t => ((.lit t (mo t), [t]) : Cmd × List Str))).flatMap
        (fun sel => product (sel.map (·.2))) =
      (sizes ts.length lo hi).flatMap fun k => selections k ts := by
    simp only [List.flatMap_assoc, List.flatMap_map, List.map_map, Function.comp_def,
      product_singletons, List.flatMap_singleton']
  rw [h2]
  have h3 : (((sizes ts.length lo hi).flatMap fun k => selections k ts).filter
      fun t => decide t.Nodup) = (sizes ts.length lo hi).flatMap fun k => selections k ts := by
    rw [List.filter_eq_self]
    intro t ht
    obtain ⟨k, -, hk⟩ := List.mem_flatMap.1 ht
    simpa using (mem_selections.1 hk).2.1
  rw [h3, eraseDups_of_nodup (nodup_flat_selections (nodup_sizes _ _ _) hts)]

theorem filter_length_selections (ks : List Nat) (hk : ks.Nodup) (l : List α) (k : Nat) (hm : k ∈ ks) :
    ((ks.flatMap fun k => selections k l).filter fun t => t.length = k) = selections k l := by
  induction ks with
  | nil => simp at hm
  | cons a ks ih =>
    rw [List.flatMap_cons, List.filter_append]
    obtain ⟨hna, hn⟩ := List.nodup_cons.1 hk
    by_cases e : k = a
    · subst e
      have h1 : ((selections k l).filter fun t => t.length = k) = selections k l := by
        rw [List.filter_eq_self]; intro t ht; simpa using (mem_selections.1 ht).1
      have h2 : ((ks.flatMap fun k => selections k l).filter fun t => t.length = k) = [] := by
        rw [List.filter_eq_nil_iff]
        intro t ht
        obtain ⟨j, hj, hj'⟩ := List.mem_flatMap.1 ht
        have := (mem_selections.1 hj').1
        simp only [decide_eq_true_eq]
        rintro rfl; exact hna (this ▸ hj)
      rw [h1, h2, List.append_nil]
    · have h1 : ((selections a l).filter fun t => t.length = k) = [] := by
        rw [List.filter_eq_nil_iff]
        intro t ht
        have := (mem_selections.1 ht).1
        simp only [decide_eq_true_eq]
        omega
      rw [h1, List.nil_append]
      exact ih hn (by simpa [e] using hm)

end Verif
