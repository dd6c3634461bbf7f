import Verif.Props.Parser
import Verif.Props.Causes
import Verif.Props.Unending
/-! Checked examples for the findings in `DESIGN.md`. -/

namespace Verif.Props
open Verif

/-- A comment after a number hides a part of a nested wrap; the rest of the wrap is read as bound and text. -/
example : parse (.default fun _ => false) c!"{2/*|%{b*/$$c}}" =
    .ok (.seq [.variant [(.lit c!"c" none, 1)] 2 2 c!"," none, .lit c!"}" none] [] none) := by decide +kernel

/-- Negative weights need a decimal point. -/
example : parse (.default fun _ => false) c!"{-1.0::a|b}" = .ok (.variant [(.lit c!"a" none, -1), (.lit c!"b" none, 1)] 1 1 c!"," none) ∧
    parse (.default fun _ => false) c!"{-1::a|b}" =
      .ok (.variant [(.lit c!"-1::a" none, 1), (.lit c!"b" none, 1)] 1 1 c!"," none) := by decide +kernel

/-- Inside a text, only `#` begins a comment. -/
example : parse (.default fun _ => false) c!"a // b" = .ok (.lit c!"a // b" none) ∧
    parse (.default fun _ => false) c!"a /* b */" = .ok (.lit c!"a /* b */" none) ∧
    parse (.default fun _ => false) c!"a # b" = .ok (.lit c!"a " none) ∧
    parse (.default fun _ => false) c!"// b\na" = .ok (.lit c!"\na" none) ∧
    parse (.default fun _ => false) c!"/* b */a" = .ok (.lit c!"a" none) := by decide +kernel

/-- Blanks before a comment are not a text. -/
example : parse (.default fun _ => false) c!"{a|b}  # c" = .ok (.variant [(.lit c!"a" none, 1), (.lit c!"b" none, 1)] 1 1 c!"," none) ∧
    parse (.default fun _ => false) c!"{a|b}  " =
      .ok (.seq [.variant [(.lit c!"a" none, 1), (.lit c!"b" none, 1)] 1 1 c!"," none, .lit c!"  " none] [] none) := by decide +kernel

/-- Going round, an option listed twice comes twice, and an inner choice is not the same as its options listed in the outer one. -/
example : (samplePrompts genEnv 60 ⟨.cyc, [], []⟩ (.inl c!"{a|a|b}") 4 0).1 = [c!"a", c!"a", c!"b", c!"a"] ∧
    (samplePrompts genEnv 60 ⟨.cyc, [], []⟩ (.inl c!"{a|b}") 4 0).1 = [c!"a", c!"b", c!"a", c!"b"] ∧
    (samplePrompts genEnv 60 ⟨.cyc, [], []⟩ (.inl c!"{{a|b}|c}") 4 0).1 = [c!"a", c!"c", c!"b", c!"c"] ∧
    (samplePrompts genEnv 60 ⟨.cyc, [], []⟩ (.inl c!"{a|b|c}") 4 0).1 = [c!"a", c!"b", c!"c", c!"a"] := by decide +kernel

/-- A wildcard whose path is a template, with values for `b` only. -/
def onlyB : Env Nat := { genEnv with
  rng := { Demo.rng with unit := fun w => (⟨if w ≤ 1 then 0 else 1 / 2, by split <;> constructor <;> decide +kernel⟩, w + 1) }
  getValues := fun wc => pure (if wc = c!"b" ∨ wc = c!"__b__" then [⟨c!"x", none⟩] else [])
  toWildcard := toWildcard c!"__" }

/-- The path is sampled again for the echo: `a` is found to be missing, but `__b__` is echoed, although `b` has a value. -/
example : (samplePrompts onlyB 60 ⟨.random, [], []⟩ (.inl c!"__{a|b}__") 1 0).1 = [c!"__b__"] := by decide +kernel

end Verif.Props
