import Verif.Model.Engine
import Mathlib.Data.List.Nodup
/-!
# What combinatorial sampling should list

A specification by plain list functions: Cartesian products, powers, filters.  It does not mention
generators, fuel or random numbers.
-/

namespace Verif.Spec
open Verif

/-- The Cartesian product of a list of lists; the first factor varies slowest. -/
def product {α : Type} : List (List α) → List (List α)
  | [] => [[]]
  | xs :: xss => xs.flatMap fun x => (product xss).map (x :: ·)

/-- All ordered selections of `k` different elements of `l`: the k-th Cartesian power of `l` without
the tuples that contain an element twice. -/
def selections {α : Type} [DecidableEq α] (k : Nat) (l : List α) : List (List α) :=
  (product (List.replicate k l)).filter (fun t => decide t.Nodup)

/-- The numbers of options a variant of `n` options with bounds `lo`, `hi` permits, ascending
(a variant command never has a negative `lo`, so the upper limit is not negative either). -/
def sizes (n : Nat) (lo hi : Int) : List Nat :=
  (List.range (n + 1)).filter fun (k : Nat) =>
    decide (max 0 (min (min lo hi) n) ≤ (k : Int) ∧ (k : Int) ≤ min (max lo hi) n)

/-- Texts with whitespace squashed, if so configured. -/
def squashIf (ws : Bool) (s : Str) : Str := if ws then squashWhitespace s else s

/-- A prompt that counts as empty (an empty sequence or variant) has no texts. -/
def unlessEmpty (c : Cmd) (l : List Str) : List Str := if c.truthy then l else []

mutual
/-- The texts of a template of literals, sequences, variants and wraps, in order. -/
def enum (ws : Bool) : Cmd → List Str
  | .lit s _ => [s]
  /- all combinations of the tokens' texts, joined (with an empty text at both ends, which only
  matters if the separator is not empty) -/
  | .seq toks sep _ => (product (enumL ws toks)).map fun t => joined sep ([] :: t ++ [[]])
  /- for every permitted size, every ordered selection of different options, every combination of
  their texts; without tuples that contain a text twice and without repeating a tuple; a variant without options
  has no text -/
  | .variant opts lo hi sep _ => if opts.isEmpty then [] else
    ((((sizes opts.length lo hi).flatMap fun k => selections k (enumO ws opts)).flatMap
      fun sel => product (sel.map (·.2))).filter (fun t => decide t.Nodup)).eraseDups.map (joined sep)
  | .wrap w i _ => (unlessEmpty w (enum ws w)).flatMap fun x =>
      (unlessEmpty i (enum ws i)).map fun y => wrapWith (squashIf ws x) (squashIf ws y)
  | .wild .. => []
  | .assign .. => []
  | .access .. => []
/-- The texts of each token. -/
def enumL (ws : Bool) : List Cmd → List (List Str)
  | [] => []
  | c :: cs => enum ws c :: enumL ws cs
/-- The options with their texts. -/
def enumO (ws : Bool) : List (Cmd × Rat) → List (Cmd × List Str)
  | [] => []
  | (c, _) :: cs => (c, enum ws c) :: enumO ws cs
end

/-- The command does not ask for the random or the cyclical method. -/
def Finite (m : Option Method) : Prop := m = none ∨ m = some .comb

/-- Templates of literals, sequences, variants and wraps, without a random or cyclical part, in
which every token of a sequence has at least one text (or is explicitly combinatorial). -/
inductive Plain (ws : Bool) : Cmd → Prop
  | lit {s m} : Finite m → Plain ws (.lit s m)
  | seq {toks sep m} : Finite m → (∀ c ∈ toks, Plain ws c) → (∀ c ∈ toks, c.method ≠ some .comb → enum ws c ≠ []) →
      Plain ws (.seq toks sep m)
  | variant {opts lo hi sep m} : Finite m → (∀ o ∈ opts, Plain ws o.1) →
      Plain ws (.variant opts lo hi sep m)
  | wrap {w i m} : Finite m → Plain ws w → Plain ws i → Plain ws (.wrap w i m)

end Verif.Spec
