import Verif.Proofs.ParserComments
import Mathlib.Tactic.Ring
import Mathlib.Tactic.FieldSimp
import Mathlib.Algebra.Order.Field.Rat
import Mathlib.Tactic.IntervalCases
/-! # Tokens of the parser -/

namespace Verif
open Spec (blank digit letter natOf digitVal)

/-! ## Characters -/

theorem char_cases {c : Char} {n : Nat} (h : c.toNat = n) : c = Char.ofNat n := by
  rw [← h, Char.ofNat_toNat]

theorem digit_eq : digit = isNum := by
  funext c
  rw [Bool.eq_iff_iff]
  constructor
  · intro h
    have h : c ∈ "0123456789".toList := by simpa [digit] using h
    have h : c ∈ c!"0123456789" := h
    simp only [List.mem_cons, List.not_mem_nil, or_false] at h
    rcases h with rfl | rfl | rfl | rfl | rfl | rfl | rfl | rfl | rfl | rfl <;> decide
  · intro h
    simp only [isNum, Bool.and_eq_true, decide_eq_true_eq] at h
    obtain ⟨h1, h2⟩ := h
    have h1 : 48 ≤ c.toNat := h1
    have h2 : c.toNat ≤ 57 := h2
    generalize hn : c.toNat = n at h1 h2
    have := char_cases hn
    subst this
    clear hn
    interval_cases n <;> decide

theorem letter_eq : letter = isAlpha := by
  funext c
  rw [Bool.eq_iff_iff]
  constructor
  · intro h
    have h : c ∈ "abcdefghijklmnopqrstuvwxyzABCDEFGHIJKLMNOPQRSTUVWXYZ".toList := by
      simpa [letter] using h
    have h : c ∈ c!"abcdefghijklmnopqrstuvwxyzABCDEFGHIJKLMNOPQRSTUVWXYZ" := h
    simp only [List.mem_cons, List.not_mem_nil, or_false] at h
    repeat' (rcases h with rfl | h; · decide)
  · intro h
    simp only [isAlpha, Bool.and_eq_true, decide_eq_true_eq, Bool.or_eq_true] at h
    have h : (97 ≤ c.toNat ∧ c.toNat ≤ 122) ∨ (65 ≤ c.toNat ∧ c.toNat ≤ 90) := h
    rcases h with ⟨h1, h2⟩ | ⟨h1, h2⟩
    all_goals
      generalize hn : c.toNat = n at h1 h2
      have := char_cases hn
      subst this
      clear hn
      interval_cases n <;> decide

theorem digitVal_eq {c : Char} (h : isNum c) : digitVal c = c.toNat - '0'.toNat := by
  simp only [isNum, Bool.and_eq_true, decide_eq_true_eq] at h
  obtain ⟨h1, h2⟩ := h
  have h1 : 48 ≤ c.toNat := h1
  have h2 : c.toNat ≤ 57 := h2
  generalize hn : c.toNat = n at h1 h2
  have := char_cases hn
  subst this
  clear hn
  interval_cases n <;> decide

theorem foldl_natOf : ∀ (ds : Str) (n : Nat), ds.all isNum →
    ds.foldl (fun n c => 10 * n + (c.toNat - '0'.toNat)) n = n * 10 ^ ds.length + natOf ds
  | [], n, _ => by simp [natOf]
  | d :: ds, n, h => by
    simp only [List.all_cons, Bool.and_eq_true] at h
    simp only [List.foldl_cons, natOf, List.length_cons]
    rw [foldl_natOf ds _ h.2, digitVal_eq h.1]
    ring

theorem numVal_eq {ds : Str} (h : ds.all isNum) : numVal ds = natOf ds := by
  unfold numVal
  rw [foldl_natOf ds 0 h]
  omega

theorem natOf_append : ∀ (a b : Str), natOf (a ++ b) = natOf a * 10 ^ b.length + natOf b
  | [], b => by simp [natOf]
  | d :: a, b => by
    simp only [List.cons_append, natOf, List.length_append]
    rw [natOf_append a b]
    ring

theorem decVal_eq {a b : Str} (ha : a.all isNum) (hb : b.all isNum) :
    decVal a b = natOf a + (natOf b : Rat) / (10 ^ b.length : Nat) := by
  unfold decVal
  rw [numVal_eq (by rw [List.all_append, ha, hb]; rfl), natOf_append]
  have : ((10 ^ b.length : Nat) : Rat) ≠ 0 := by positivity
  push_cast
  push_cast at this
  field_simp

/-! ## Tokens -/

theorem tok_ok (t : Str) {s u : Str} (h : skip s = t ++ u) : tok t s = .ok () u := by
  unfold tok startsWith
  rw [h, if_pos (by rw [List.isPrefixOf_iff_prefix]; exact List.prefix_append _ _), List.drop_left]

theorem tok_fail {t s : Str} (ht : t.isPrefixOf (skip s) = false) : tok t s = .fail := by
  unfold tok startsWith
  rw [ht]
  rfl

theorem takeWhile_all_append {p : Char → Bool} : ∀ {a b : Str}, a.all p → b.head?.any p = false →
    (a ++ b).takeWhile p = a
  | [], b, _, h => by
    cases b with
    | nil => rfl
    | cons c b =>
      simp only [List.head?_cons, Option.any_some] at h
      rw [List.nil_append, List.takeWhile_cons, if_neg (by simp [h])]
  | c :: a, b, h, hb => by
    simp only [List.all_cons, Bool.and_eq_true] at h
    rw [List.cons_append, List.takeWhile_cons, if_pos h.1, takeWhile_all_append h.2 hb]

theorem optWs_solid {u : Str} (h : Solid u) : optWs u = u := optWs_of_skip h.skip h.noWs

theorem intTok_ok {s ds u : Str} (h : skip s = ds ++ u) (hd : ds.all isNum) (hne : ds ≠ [])
    (hu : u.head?.any isNum = false) : intTok s = .ok (natOf ds) u := by
  unfold intTok
  rw [h, takeWhile_all_append hd hu]
  dsimp only
  rw [if_neg (by simpa using hne), List.drop_left, numVal_eq hd]

theorem intTok_fail {s : Str} (hs : (skip s).head?.any isNum = false) : intTok s = .fail := by
  unfold intTok
  have h1 := takeWhile_all_append (p := isNum) (a := []) rfl hs
  rw [List.nil_append] at h1
  rw [h1]
  rfl

theorem nameTok_ok {s n u : Str} (h : skip s = n ++ u) (hn : Spec.varName n = true)
    (hu : u.head?.any (fun c => isAlpha c || isNum c || c == '_' || c == '-') = false) :
    nameTok s = .ok n u := by
  unfold nameTok
  rw [h]
  cases n with
  | nil => simp [Spec.varName, Spec.beginsWith] at hn
  | cons c cs =>
    simp only [Spec.varName, Spec.beginsWith, List.head?_cons, Option.any_some, letter_eq, digit_eq,
      List.contains_cons, List.contains_nil, Bool.or_false, List.all_cons, Bool.and_eq_true] at hn
    rw [List.cons_append]
    dsimp only
    rw [if_pos (by simpa [Bool.or_assoc] using hn.1)]
    have h2 : cs.all (fun c => isAlpha c || isNum c || c == '_' || c == '-') := by
      simpa [Bool.or_assoc] using hn.2.2
    rw [takeWhile_all_append h2 hu, List.drop_left]

theorem samplerTok_ok {s : Str} {m : Method} {u : Str} (h : skip s = Spec.methodSource (some m) ++ u) :
    samplerTok s = .ok m u := by
  unfold samplerTok
  rw [h]
  cases m <;> rfl

theorem samplerTok_fail {s : Str} (hs : (skip s).head?.any Spec.symbol = false) :
    samplerTok s = .fail := by
  unfold samplerTok
  generalize skip s = s at hs
  cases s with
  | nil => rfl
  | cons c s =>
    simp only [List.head?_cons, Option.any_some, Spec.symbol, List.contains_cons, List.contains_nil,
      Bool.or_false, Bool.or_eq_false_iff, beq_eq_false_iff_ne, ne_eq] at hs
    split
    · rename_i he; cases he; exact absurd rfl hs.1
    · rename_i he; cases he; exact absurd rfl hs.2.1
    · rename_i he; cases he; exact absurd rfl hs.2.2
    · rfl

end Verif
