import Verif.Spec.Enumerate
/-!
# What combinatorial sampling lists, including how it ends

`Spec.enum` says which texts a template lists if every token of its sequences has a text.  If one has
none, sampling ends with a RuntimeError.  Here a run is a list together with whether it ends that way.
-/

namespace Verif.Spec
open Verif

/-- Some results, and whether RuntimeError comes after them. -/
abbrev Run (α : Type) := List α × Bool

/-- First `a`, then (if `a` did not fail) `b`. -/
def Run.andThen {α : Type} (a b : Run α) : Run α := if a.2 then a else (a.1 ++ b.1, b.2)

/-- `f` for each element in turn, up to the first failure; `fails` if none. -/
def Run.each {α β : Type} (f : α → Run β) (fails : Bool) : List α → Run β
  | [] => ([], fails)
  | x :: xs => (f x).andThen (Run.each f fails xs)

/-- `f` for each result. -/
def Run.map {α β : Type} (f : α → β) (a : Run α) : Run β := (a.1.map f, a.2)

/-- All combinations; the first factor varies slowest, the others are run anew for each of its
results. -/
def productR {α : Type} : List (Run α) → Run (List α)
  | [] => ([[]], false)
  | r :: rs => Run.each (fun x => (productR rs).map (x :: ·)) r.2 r.1

/-- A prompt that counts as empty does nothing. -/
def unlessEmptyR (c : Cmd) (r : Run Str) : Run Str := if c.truthy then r else ([], false)

mutual
/-- The run of a template of literals, sequences, variants and wraps. -/
def runs (ws : Bool) : Cmd → Run Str
  | .lit s _ => ([s], false)
  /- a sequence fails at once if a token that is not marked combinatorial has no text at all -/
  | .seq toks sep _ => if fruitless ws toks then ([], true) else
      (productR (runsL ws toks)).map fun t => joined sep ([] :: t ++ [[]])
  | .variant opts lo hi sep _ => if opts.isEmpty then ([], false) else
      let r := Run.each (fun sel => productR (sel.map (·.2))) false
        ((sizes opts.length lo hi).flatMap fun k => selections k (runsO ws opts))
      (((r.1.filter (fun t => decide t.Nodup)).eraseDups).map (joined sep), r.2)
  | .wrap w i _ =>
      Run.each (fun x => (unlessEmptyR i (runs ws i)).map fun y => wrapWith (squashIf ws x) (squashIf ws y))
        (unlessEmptyR w (runs ws w)).2 (unlessEmptyR w (runs ws w)).1
  | .wild .. => ([], false)
  | .assign .. => ([], false)
  | .access .. => ([], false)
/-- Some command not marked combinatorial has no text. -/
def fruitless (ws : Bool) : List Cmd → Bool
  | [] => false
  | c :: cs => (decide (c.method ≠ some .comb) && (runs ws c).1.isEmpty) || fruitless ws cs
/-- The runs of the tokens. -/
def runsL (ws : Bool) : List Cmd → List (Run Str)
  | [] => []
  | c :: cs => runs ws c :: runsL ws cs
/-- The options with their runs. -/
def runsO (ws : Bool) : List (Cmd × Rat) → List (Cmd × Run Str)
  | [] => []
  | (c, _) :: cs => (c, runs ws c) :: runsO ws cs
end

/-- Templates of literals, sequences, variants and wraps, without a random or cyclical part. -/
inductive Basic : Cmd → Prop
  | lit {s m} : Finite m → Basic (.lit s m)
  | seq {toks sep m} : Finite m → (∀ c ∈ toks, Basic c) → Basic (.seq toks sep m)
  | variant {opts lo hi sep m} : Finite m → (∀ o ∈ opts, Basic o.1) → Basic (.variant opts lo hi sep m)
  | wrap {w i m} : Finite m → Basic w → Basic i → Basic (.wrap w i m)

end Verif.Spec
