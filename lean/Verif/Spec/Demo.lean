import Verif.Spec.Language
/-!
A small concrete environment, used only in the `example`s that show that theorems apply to
non-trivial cases.
-/

namespace Verif.Demo
open Verif

/-- A counter as random source. -/
def rng : Rng Nat where
  arith := .exact
  below n w := (⟨w % (n + 1), Nat.mod_lt _ (Nat.succ_pos _)⟩, w + 1)
  unit w := (⟨if w % 2 = 0 then 0 else 1 / 2, by
    split
    · exact ⟨by decide, by decide +kernel⟩
    · exact ⟨by decide +kernel, by decide +kernel⟩⟩, w + 1)

/-- Every text parses as itself, there is one wildcard `colors` with two values. -/
def env : Env Nat where
  rng := rng
  parse s := .ok (.lit s none)
  ignoreWs := false
  unknown := none
  toWildcard s := c!"__" ++ s ++ c!"__"
  getValues s := pure (if s = c!"colors" then [⟨c!"red", none⟩, ⟨c!"blue", none⟩] else [])

/-- An empty context with the given default method. -/
def ctx (m : Method) : Ctx := ⟨m, [], []⟩

/-- Pick-one variant of literals. -/
def oneOf (l : List Str) (m : Option Method := none) : Cmd :=
  .variant (l.map fun s => (.lit s none, 1)) 1 1 c!"," m

/-- The exception with which an iteration ended, if any. -/
def errOf {W : Type} : Stop W → Option Err
  | .raised e _ => some e
  | _ => none

/-- The iteration ended regularly (StopIteration). -/
def stopped {W : Type} : Stop W → Bool
  | .stop _ => true
  | _ => false

end Verif.Demo
