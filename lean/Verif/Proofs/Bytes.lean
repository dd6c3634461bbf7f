import Verif.Spec.Bytes
/-!
# Lemmas about decoding
-/

namespace Verif
open Spec

private theorem byte_toNat {x : Nat} (h : x < 256) : (UInt8.ofNat x).toNat = x := by
  simp [UInt8.toNat_ofNat']; omega

private theorem ofNat_eq {c : Char} {n : Nat} (h : n = c.val.toNat) : Char.ofNat n = c := by
  subst h; exact Char.ofNat_toNat c

private theorem char_range (c : Char) : c.val.toNat < 0xD800 ∨ (0xDFFF < c.val.toNat ∧ c.val.toNat < 0x110000) := c.valid

/-- The bytes of a character are decoded to it, whatever follows. -/
theorem step_encoded (c : Char) : ∃ b t, String.utf8EncodeChar c = b :: t ∧
    ∀ rest, utf8Step b (t ++ rest) = (some c, t.length) := by
  have hr := char_range c
  unfold String.utf8EncodeChar
  generalize hv : c.val.toNat = v at *
  dsimp only
  split
  · refine ⟨_, _, rfl, fun rest => ?_⟩
    simp only [utf8Step, byte_toNat (show v < 256 by omega), if_pos (show v < 128 by omega), List.length_nil]
    rw [ofNat_eq hv.symm]
  split
  · refine ⟨_, _, rfl, fun rest => ?_⟩
    have e0 := byte_toNat (x := v / 64 % 32 + 192) (by omega)
    have e1 := byte_toNat (x := v % 64 + 128) (by omega)
    simp only [utf8Step, e0, List.cons_append, List.nil_append, isCont, e1]
    rw [if_neg (by omega), if_neg (by omega), if_pos (by omega), if_pos (by simp; omega), ofNat_eq (c := c) (by omega)]
    rfl
  split
  · refine ⟨_, _, rfl, fun rest => ?_⟩
    have e0 := byte_toNat (x := v / 4096 % 16 + 224) (by omega)
    have e1 := byte_toNat (x := v / 64 % 64 + 128) (by omega)
    have e2 := byte_toNat (x := v % 64 + 128) (by omega)
    simp only [utf8Step, e0, List.cons_append, List.nil_append, isSecond3, isSecond4, isCont, e1, e2]
    rw [if_neg (by omega), if_neg (by omega), if_neg (by omega), if_pos (by omega), if_pos (by split <;> simp <;> omega),
      if_pos (by simp; omega), ofNat_eq (c := c) (by omega)]
    rfl
  · refine ⟨_, _, rfl, fun rest => ?_⟩
    have e0 := byte_toNat (x := v / 262144 % 8 + 240) (by omega)
    have e1 := byte_toNat (x := v / 4096 % 64 + 128) (by omega)
    have e2 := byte_toNat (x := v / 64 % 64 + 128) (by omega)
    have e3 := byte_toNat (x := v % 64 + 128) (by omega)
    simp only [utf8Step, e0, List.cons_append, List.nil_append, isSecond3, isSecond4, isCont, e1, e2, e3]
    rw [if_neg (by omega), if_neg (by omega), if_neg (by omega), if_neg (by omega), if_pos (by omega),
      if_pos (by split <;> simp <;> omega), if_pos (by simp; omega), if_pos (by simp; omega), ofNat_eq (c := c) (by omega)]
    rfl

private theorem ofNat_val {n : Nat} (h : n < 0xD800 ∨ (0xDFFF < n ∧ n < 0x110000)) : (Char.ofNat n).val.toNat = n := by
  have : n.isValidChar := h
  simp [Char.ofNat, this]; rfl

private theorem byte_eq {b : UInt8} {x : Nat} (h : b.toNat = x) : UInt8.ofNat x = b := by
  subst h; exact UInt8.ofNat_toNat

private theorem isCont_iff {b : UInt8} : isCont b = true ↔ 0x80 ≤ b.toNat ∧ b.toNat < 0xC0 := by simp [isCont]

private theorem second3 {a : Nat} {b : UInt8} (h : isSecond3 a b = true) : (0x80 ≤ b.toNat ∧ b.toNat < 0xC0) ∧
    (b.toNat < 0xA0 ∧ a ≠ 0xE0 ∨ 0xA0 ≤ b.toNat ∧ a ≠ 0xED) := by
  simp only [isSecond3, Bool.and_eq_true, isCont_iff] at h
  obtain ⟨h1, h2⟩ := h
  refine ⟨h1, ?_⟩
  split at h2 <;> simp at h2 <;> omega

private theorem second4 {a : Nat} {b : UInt8} (h : isSecond4 a b = true) : (0x80 ≤ b.toNat ∧ b.toNat < 0xC0) ∧
    (b.toNat < 0x90 ∧ a ≠ 0xF0 ∨ 0x90 ≤ b.toNat ∧ a ≠ 0xF4) := by
  simp only [isSecond4, Bool.and_eq_true, isCont_iff] at h
  obtain ⟨h1, h2⟩ := h
  refine ⟨h1, ?_⟩
  split at h2 <;> simp at h2 <;> omega

/-- What is decoded to a character is the bytes of the character. -/
theorem step_char {b : UInt8} {rest : List UInt8} {c : Char} {n : Nat} (h : utf8Step b rest = (some c, n)) :
    ∃ t rest', rest = t ++ rest' ∧ t.length = n ∧ String.utf8EncodeChar c = b :: t := by
  have hb := b.toNat_lt
  unfold utf8Step at h
  dsimp only at h
  split at h
  · simp only [Prod.mk.injEq, Option.some.injEq] at h
    obtain ⟨rfl, rfl⟩ := h
    refine ⟨[], rest, rfl, rfl, ?_⟩
    have e := ofNat_val (n := b.toNat) (by omega)
    simp only [String.utf8EncodeChar, e]
    rw [if_pos (by omega), byte_eq rfl]
  split at h
  · cases h
  split at h
  · cases rest with
    | nil => cases h
    | cons b1 r =>
      dsimp only at h
      split at h
      · rename_i h1
        rw [isCont_iff] at h1
        simp only [Prod.mk.injEq, Option.some.injEq] at h
        obtain ⟨rfl, rfl⟩ := h
        refine ⟨[b1], r, rfl, rfl, ?_⟩
        have e := ofNat_val (n := (b.toNat - 0xC0) * 64 + (b1.toNat - 0x80)) (by omega)
        simp only [String.utf8EncodeChar, e]
        rw [if_neg (by omega), if_pos (by omega), byte_eq (b := b) (by omega), byte_eq (b := b1) (by omega)]
      · cases h
  split at h
  · cases rest with
    | nil => cases h
    | cons b1 r =>
      dsimp only at h
      split at h
      rotate_left
      · cases h
      rename_i h1
      cases r with
      | nil => cases h
      | cons b2 r =>
        dsimp only at h
        split at h
        · rename_i h2
          rw [isCont_iff] at h2
          obtain ⟨h1, h1'⟩ := second3 h1
          simp only [Prod.mk.injEq, Option.some.injEq] at h
          obtain ⟨rfl, rfl⟩ := h
          refine ⟨[b1, b2], r, rfl, rfl, ?_⟩
          have hv : (b.toNat - 0xE0) * 4096 + (b1.toNat - 0x80) * 64 + (b2.toNat - 0x80) < 0xD800 ∨
              (0xDFFF < (b.toNat - 0xE0) * 4096 + (b1.toNat - 0x80) * 64 + (b2.toNat - 0x80) ∧
              (b.toNat - 0xE0) * 4096 + (b1.toNat - 0x80) * 64 + (b2.toNat - 0x80) < 0x110000) := by
            omega
          have e := ofNat_val hv
          simp only [String.utf8EncodeChar, e]
          have hge : 0x800 ≤ (b.toNat - 0xE0) * 4096 + (b1.toNat - 0x80) * 64 + (b2.toNat - 0x80) := by
            omega
          rw [if_neg (by omega), if_neg (by omega), if_pos (by omega), byte_eq (b := b) (by omega), byte_eq (b := b1) (by omega),
            byte_eq (b := b2) (by omega)]
        · cases h
  split at h
  · cases rest with
    | nil => cases h
    | cons b1 r =>
      dsimp only at h
      split at h
      rotate_left
      · cases h
      rename_i h1
      cases r with
      | nil => cases h
      | cons b2 r =>
        dsimp only at h
        split at h
        · rename_i h2
          rw [isCont_iff] at h2
          cases r with
          | nil => cases h
          | cons b3 r =>
            dsimp only at h
            split at h
            · rename_i h3
              rw [isCont_iff] at h3
              obtain ⟨h1, h1'⟩ := second4 h1
              simp only [Prod.mk.injEq, Option.some.injEq] at h
              obtain ⟨rfl, rfl⟩ := h
              refine ⟨[b1, b2, b3], r, rfl, rfl, ?_⟩
              have hv : 0x10000 ≤ (b.toNat - 0xF0) * 262144 + (b1.toNat - 0x80) * 4096 + (b2.toNat - 0x80) * 64 +
                  (b3.toNat - 0x80) ∧ (b.toNat - 0xF0) * 262144 + (b1.toNat - 0x80) * 4096 + (b2.toNat - 0x80) * 64 +
                  (b3.toNat - 0x80) < 0x110000 := by
                omega
              have e := ofNat_val (.inr ⟨by omega, hv.2⟩)
              simp only [String.utf8EncodeChar, e]
              rw [if_neg (by omega), if_neg (by omega), if_neg (by omega), byte_eq (b := b) (by omega),
                byte_eq (b := b1) (by omega), byte_eq (b := b2) (by omega), byte_eq (b := b3) (by omega)]
            · cases h
        · cases h
  · cases h

/-- A byte that continues no character ends an unfinished one, as the end of the file does. -/
theorem step_before {b d : UInt8} (x y : List UInt8) (hd : isCont d = false) : utf8Step b (x ++ d :: y) = utf8Step b x := by
  rcases x with _ | ⟨b1, _ | ⟨b2, _ | ⟨b3, x⟩⟩⟩ <;> simp [utf8Step, isSecond3, isSecond4, hd]

/-- An error is found at its last byte or at the next one; what follows does not matter. -/
theorem step_error {b d : UInt8} {x y : List UInt8} (h : utf8Step b (x ++ d :: y) = (none, x.length)) (y' : List UInt8) :
    utf8Step b (x ++ d :: y') = (none, x.length) := by
  rcases x with _ | ⟨b1, _ | ⟨b2, _ | ⟨b3, x⟩⟩⟩ <;>
    simp only [utf8Step, List.nil_append, List.cons_append, List.length_nil, List.length_cons] at h ⊢ <;> grind

theorem step_error_length {b : UInt8} {x : List UInt8} {n : Nat} (h : utf8Step b x = (none, n)) : n ≤ x.length := by
  rcases x with _ | ⟨b1, _ | ⟨b2, _ | ⟨b3, x⟩⟩⟩ <;>
    simp only [utf8Step] at h <;> (repeat' split at h) <;> simp_all <;> omega

theorem step_unfinished {b : UInt8} {x : List UInt8} {n : Nat} (h : utf8Step b x = (none, n)) (hn : n ≠ 0) :
    Unfinished (b :: x.take n) := by
  have key : ∀ more m c, more ≠ [] → utf8Step b (x.take n ++ more) = (some c, m) → m = n + more.length → n ≤ x.length →
      Unfinished (b :: x.take n) := by
    intro more m c hm hs e hl
    obtain ⟨t, r, ht, hlen, henc⟩ := step_char hs
    have : t = x.take n ++ more := by
      have hl2 : (x.take n ++ more).length = t.length := by simp; omega
      rw [ht] at hl2
      have : r = [] := by
        cases r with
        | nil => rfl
        | cons => simp at hl2
      rw [ht, this, List.append_nil]
    exact ⟨c, more, hm, by rw [henc, this]; rfl⟩
  have hl := step_error_length h
  have h80 : isCont 0x80 = true := by decide
  have hb3 : ∀ b1 : UInt8, 0xE0 ≤ b.toNat → b.toNat < 0xF0 → isSecond3 b.toNat b1 = true → ∃ c, utf8Step b [b1, 0x80] = (some c, 2) := by
    intro b1 h1 h2 hs
    simp only [utf8Step]
    rw [if_neg (by omega), if_neg (by omega), if_neg (by omega), if_pos h2, if_pos hs, if_pos h80]
    exact ⟨_, rfl⟩
  have hb4 : ∀ b1 : UInt8, 0xF0 ≤ b.toNat → b.toNat < 0xF5 → isSecond4 b.toNat b1 = true → ∃ c, utf8Step b [b1, 0x80, 0x80] = (some c, 3) := by
    intro b1 h1 h2 hs
    simp only [utf8Step]
    rw [if_neg (by omega), if_neg (by omega), if_neg (by omega), if_neg (by omega), if_pos h2, if_pos hs, if_pos h80, if_pos h80]
    exact ⟨_, rfl⟩
  have hb5 : ∀ b1 b2 : UInt8, 0xF0 ≤ b.toNat → b.toNat < 0xF5 → isSecond4 b.toNat b1 = true → isCont b2 = true →
      ∃ c, utf8Step b [b1, b2, 0x80] = (some c, 3) := by
    intro b1 b2 h1 h2 hs h3
    simp only [utf8Step]
    rw [if_neg (by omega), if_neg (by omega), if_neg (by omega), if_neg (by omega), if_pos h2, if_pos hs, if_pos h3, if_pos h80]
    exact ⟨_, rfl⟩
  have cases3 : (n = 1 ∧ ∃ b1 r, x = b1 :: r ∧ 0xE0 ≤ b.toNat ∧ b.toNat < 0xF0 ∧ isSecond3 b.toNat b1 = true) ∨
      (n = 1 ∧ ∃ b1 r, x = b1 :: r ∧ 0xF0 ≤ b.toNat ∧ b.toNat < 0xF5 ∧ isSecond4 b.toNat b1 = true) ∨
      (n = 2 ∧ ∃ b1 b2 r, x = b1 :: b2 :: r ∧ 0xF0 ≤ b.toNat ∧ b.toNat < 0xF5 ∧ isSecond4 b.toNat b1 = true ∧
        isCont b2 = true) := by
    clear key hb3 hb4 hb5 hl
    have zero : (none (α := Char), 0) ≠ (none, n) := fun e => hn (Prod.mk.inj e).2.symm
    unfold utf8Step at h
    dsimp only at h
    split at h
    · cases h
    split at h
    · exact absurd h zero
    split at h
    · cases x with
      | nil => exact absurd h zero
      | cons b1 r =>
        dsimp only at h
        split at h
        · cases h
        · exact absurd h zero
    split at h
    · cases x with
      | nil => exact absurd h zero
      | cons b1 r =>
        dsimp only at h
        split at h
        · rename_i h2
          refine .inl ⟨?_, b1, r, rfl, by omega, by omega, h2⟩
          cases r with
          | nil => cases h; rfl
          | cons b2 r =>
            dsimp only at h
            split at h <;> cases h
            rfl
        · exact absurd h zero
    split at h
    · cases x with
      | nil => exact absurd h zero
      | cons b1 r =>
        dsimp only at h
        split at h
        · rename_i h2
          cases r with
          | nil => cases h; exact .inr (.inl ⟨rfl, b1, [], rfl, by omega, by omega, h2⟩)
          | cons b2 r =>
            dsimp only at h
            split at h
            · rename_i h3
              refine .inr (.inr ⟨?_, b1, b2, r, rfl, by omega, by omega, h2, h3⟩)
              cases r with
              | nil => cases h; rfl
              | cons b3 r =>
                dsimp only at h
                split at h <;> cases h
                rfl
            · cases h; exact .inr (.inl ⟨rfl, b1, _, rfl, by omega, by omega, h2⟩)
        · exact absurd h zero
    · exact absurd h zero
  rcases cases3 with ⟨rfl, b1, r, rfl, h1, h2, h3⟩ | ⟨rfl, b1, r, rfl, h1, h2, h3⟩ | ⟨rfl, b1, b2, r, rfl, h1, h2, h3, h4⟩
  · obtain ⟨c, e⟩ := hb3 b1 h1 h2 h3
    exact key [0x80] 2 c (by simp) e rfl hl
  · obtain ⟨c, e⟩ := hb4 b1 h1 h2 h3
    exact key [0x80, 0x80] 3 c (by simp) e rfl hl
  · obtain ⟨c, e⟩ := hb5 b1 b2 h1 h2 h3 h4
    exact key [0x80] 3 c (by simp) e rfl hl
end Verif
