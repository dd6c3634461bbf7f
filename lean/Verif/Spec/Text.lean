import Verif.Py.Str
/-!
# Specification of the text helpers

Nothing here mentions the functions of the model (except the character class `isSpace`).
-/

namespace Verif.Spec
open Verif

/-- Every character of `s` is whitespace. -/
def Blank (s : Str) : Prop := ∀ c ∈ s, isSpace c = true

/-- A word: non-empty and free of whitespace. -/
def Word (w : Str) : Prop := w ≠ [] ∧ ∀ c ∈ w, isSpace c = false

/-- `Words s ws`: `s` consists of the words `ws`, in order, separated by whitespace and
possibly surrounded by whitespace. -/
inductive Words : Str → List Str → Prop
  | nil {s} : Blank s → Words s []
  | one {a w b} : Blank a → Word w → Blank b → Words (a ++ w ++ b) [w]
  | more {a w b r ws} : Blank a → Word w → Blank b → b ≠ [] → ws ≠ [] → Words r ws →
      Words (a ++ w ++ b ++ r) (w :: ws)

/-- A text in normal form: words separated by exactly one space, nothing else. -/
def OneSpaced (s : Str) (ws : List Str) : Prop :=
  (∀ w ∈ ws, Word w) ∧ s = List.intercalate [' '] ws

/-- A wrap marker: one or more ellipsis characters, or three or more dots. -/
def IsMark (m : Str) : Prop :=
  (m ≠ [] ∧ ∀ c ∈ m, c.toNat ∈ [0x1801, 0x2026, 0x22ee, 0x22ef, 0x22f0, 0x22f1, 0xfe19]) ∨
  (∃ k, 3 ≤ k ∧ m = List.replicate k '.')

end Verif.Spec
