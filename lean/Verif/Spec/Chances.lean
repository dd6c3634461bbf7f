import Verif.Spec.Reachable
/-!
# How likely the prompts of random sampling are

A distribution is a list of outcomes with their chances.  `Chance E vars being c P` says that random
sampling produces the texts in `P` from the command `c` with the chances in `P`: the number of options a
choice picks is uniform, options are picked one after the other without replacement in proportion to
their weights, and different parts of a template are independent.

An `Event` describes how successive random draws come out; its chance is the product of the chances of
the draws.
-/

namespace Verif.Spec
open Verif

/-! ## Events -/

/-- How one random draw comes out. -/
inductive Condition where
  /-- an integer draw from `0, …, n` gives `k` -/
  | below (n k : Nat)
  /-- a draw from [0, 1) is at least `a` and less than `b` -/
  | unit (a b : Rat)

/-- The condition can be met: the number is one of those drawn from, the interval is part of [0, 1). -/
def Condition.Proper : Condition → Prop
  | .below n k => k ≤ n
  | .unit a b => 0 ≤ a ∧ a ≤ b ∧ b ≤ 1

/-- How likely the draw comes out like this. -/
def Condition.chance : Condition → Rat
  | .below n _ => 1 / (n + 1 : Nat)
  | .unit a b => b - a

/-- How successive draws come out. -/
abbrev Event := List Condition

/-- How likely independent draws come out like this. -/
def Event.chance (e : Event) : Rat := (e.map Condition.chance).prod

variable {W : Type}

/-- If the next draws come out as the event says, the state of the source after them. -/
def Event.after (r : Rng W) : Event → W → Option W
  | [], w => some w
  | .below n k :: e, w => if (r.below n w).1.val = k then Event.after r e (r.below n w).2 else none
  | .unit a b :: e, w =>
      if a ≤ (r.unit w).1.val ∧ (r.unit w).1.val < b then Event.after r e (r.unit w).2 else none

/-- The next draws come out as the event says. -/
def Event.happens (r : Rng W) (e : Event) (w : W) : Bool := (e.after r w).isSome

/-! ## Distributions -/

/-- Outcomes and their chances; an outcome may be listed several times. -/
abbrev Distr (α : Type) := List (α × Rat)

variable {α β : Type}

/-- One outcome only. -/
def Distr.sure (a : α) : Distr α := [(a, 1)]

/-- Another name for the outcomes. -/
def Distr.map (f : α → β) (d : Distr α) : Distr β := List.map (fun x => (f x.1, x.2)) d

/-- First `d`, then, depending on its outcome, `f`. -/
def Distr.bind (d : Distr α) (f : α → Distr β) : Distr β :=
  List.flatMap (fun x => List.map (fun y => (y.1, x.2 * y.2)) (f x.1)) d

/-- One outcome of each distribution, independently. -/
def Distr.all : List (Distr α) → Distr (List α)
  | [] => Distr.sure []
  | d :: ds => d.bind fun a => (Distr.all ds).map (a :: ·)

/-- How likely an outcome is altogether. -/
def Distr.of [DecidableEq α] (d : Distr α) (a : α) : Rat := ((d.filter fun x => x.1 = a).map (·.2)).sum

/-- The sum of the weights. -/
def total (l : List (α × Rat)) : Rat := (l.map (·.2)).sum

/-- One of the elements, in proportion to the weights. -/
def oneOf (l : List (α × Rat)) : Distr α := l.map fun x => (x.1, x.2 / total l)

/-- Each element of a list together with the other ones. -/
def splits : List α → List (α × List α)
  | [] => []
  | x :: l => (x, l) :: (splits l).map fun p => (p.1, x :: p.2)

/-- `k` of the elements, one after the other, each in proportion to the weights of those still there. -/
def pickings : Nat → List (α × Rat) → Distr (List α)
  | 0, _ => Distr.sure []
  | k + 1, l => (splits l).flatMap fun x =>
      List.map (fun y => (x.1.1 :: y.1, x.1.2 / total l * y.2)) (pickings k x.2)

/-- The number of options to pick: uniform between the bounds, as far as there are that many. -/
def counts (n : Nat) (lo hi : Int) : Distr Nat :=
  let a := (max 0 (min (min lo hi) n)).toNat
  let b := (max 0 (min (max lo hi) n)).toNat
  (List.range (b - a + 1)).map fun i => (a + i, 1 / (b - a + 1 : Nat))

/-- A choice among options with the given distributions and weights. -/
def variantDist (opts : List (Distr Str × Rat)) (lo hi : Int) (sep : Str) : Distr Str :=
  (counts opts.length lo hi).bind fun k => ((pickings k opts).bind Distr.all).map (joined sep)

/-- Equal elements stand next to each other. -/
def Together (l : List Rat) : Prop := ∀ a b c, [a, b, c].Sublist l → a = c → b = a

/-! ## Prompts -/

mutual
/-- The command, in a random context. -/
inductive Chance (E : Env W) : List (Str × Cmd) → List Str → Cmd → Distr Str → Prop
  | cmd {vars being c P} : c.method ≠ some .cyc → ChanceIn E vars being c P → Chance E vars being c P
  | access {vars being name d c P} : Resolves E.unknown vars name d c → name ∉ being →
      Chance E vars (name :: being) c P → Chance E vars being (.access name d) P
/-- The command, sampled by the random sampler. -/
inductive ChanceIn (E : Env W) : List (Str × Cmd) → List Str → Cmd → Distr Str → Prop
  | lit {vars being s m} : ChanceIn E vars being (.lit s m) (.sure s)
  /-- the variables first, then the parts, independently -/
  | seq {vars being toks sep m toks' N} {Ds : List (Str × Cmd) → List (Distr Str)} :
      ChanceAssign E vars being toks toks' N →
      (∀ x, x ∈ N → ChanceAll E (x.1 ++ vars) being toks' (Ds x.1)) →
      ChanceIn E vars being (.seq toks sep m) (N.bind fun new => (Distr.all (Ds new)).map (joined sep))
  /-- if more than one option may be picked, weights are positive, options differ, and equal weights
  stand next to each other (otherwise the code mixes up the weights) -/
  | variant {vars being opts lo hi sep m Ds} : 2 ≤ opts.length → 0 ≤ max lo hi →
      (∀ p, p ∈ opts → 0 ≤ p.2) → 0 < total opts →
      (2 ≤ max lo hi → (∀ p, p ∈ opts → 0 < p.2) ∧ (opts.map (·.1)).Nodup ∧ Together (opts.map (·.2))) →
      ChanceAll E vars being (opts.map (·.1)) Ds →
      ChanceIn E vars being (.variant opts lo hi sep m) (variantDist (Ds.zip (opts.map (·.2))) lo hi sep)
  | variantSingle {vars being c wt lo hi sep m P} : ¬ SingleWild [(c, wt)] → Chance E vars being c P →
      ChanceIn E vars being (.variant [(c, wt)] lo hi sep m) P
  /-- a wildcard alone in a choice: its values are the options -/
  | variantWild {vars being path m' v wt lo hi sep m PW} {items : Str → List Item} {cs : Str → List Cmd}
      {P : Str → Distr Str} : ChancePrompt E vars being path PW →
      (∀ x, x ∈ PW → Gives E x.1 (items x.1)) →
      (∀ x, x ∈ PW → ParsesAll E (iterateWeighted (items x.1)) (cs x.1)) →
      (∀ x, x ∈ PW → ChanceIn E vars being (Cmd.mkVariant ((cs x.1).map (fun c => (c, 1)))
        (min lo (items x.1).length) (min hi (items x.1).length) sep m') (P x.1)) →
      ChanceIn E vars being (.variant [(.wild path m' v, wt)] lo hi sep m) (PW.bind P)
  /-- the values of a wildcard, in proportion to their weights -/
  | wild {vars being path m v PW} {items : Str → List Item} {P : Item → Distr Str} :
      ChancePrompt E vars being path PW →
      (∀ x, x ∈ PW → Gives E x.1 (items x.1)) →
      (∀ x, x ∈ PW → ∀ i, i ∈ items x.1 → 0 ≤ i.weight.getD 1) →
      (∀ x, x ∈ PW → ∃ i, i ∈ items x.1 ∧ 0 < i.weight.getD 1) →
      (∀ x, x ∈ PW → ∀ i, i ∈ items x.1 → ChancePrompt E (v ++ vars) being (.inl i.content) (P i)) →
      ChanceIn E vars being (.wild path m v)
        (PW.bind fun wc => (oneOf ((items wc).map fun i => (i, i.weight.getD 1))).bind P)
  | wildMissing {vars being p m v PW} : ChancePrompt E vars being (.inl p) PW →
      (∀ x, x ∈ PW → Gives E x.1 []) →
      ChanceIn E vars being (.wild (.inl p) m v) (PW.map fun _ => E.toWildcard p)
  | wrap {vars being wr i m P Q} : Chance E vars being wr P → Chance E vars being i Q →
      ChanceIn E vars being (.wrap wr i m) (P.bind fun w => Q.map (wrapWith w))
/-- The commands of a list. -/
inductive ChanceAll (E : Env W) : List (Str × Cmd) → List Str → List Cmd → List (Distr Str) → Prop
  | nil {vars being} : ChanceAll E vars being [] []
  | cons {vars being c cs P Ps} : Chance E vars being c P → ChanceAll E vars being cs Ps →
      ChanceAll E vars being (c :: cs) (P :: Ps)
/-- A prompt, with whitespace squashed if so configured. -/
inductive ChancePrompt (E : Env W) : List (Str × Cmd) → List Str → Prompt → Distr Str → Prop
  | text {vars being p c P} : p ≠ [] → E.parse p = .ok c → Chance E vars being c P →
      ChancePrompt E vars being (.inl p) (P.map fun s => if E.ignoreWs then squashWhitespace s else s)
  | cmd {vars being c P} : c.truthy = true → Chance E vars being c P →
      ChancePrompt E vars being (.inr c) (P.map fun s => if E.ignoreWs then squashWhitespace s else s)
/-- The tokens of a sequence and the distribution of its bindings, compare `CouldAssign`. -/
inductive ChanceAssign (E : Env W) :
    List (Str × Cmd) → List Str → List Cmd → List Cmd → Distr (List (Str × Cmd)) → Prop
  | nil {vars being} : ChanceAssign E vars being [] [] (.sure [])
  | tok {vars being c cs toks N} : (∀ n v i o, c ≠ .assign n v i o) →
      ChanceAssign E vars being cs toks N → ChanceAssign E vars being (c :: cs) (c :: toks) N
  /-- `?=` keeps an existing value -/
  | keep {vars being n v i c cs toks N} : vars.lookup n = some c → ChanceAssign E vars being cs toks N →
      ChanceAssign E vars being (.assign n v i false :: cs) toks (N.map (· ++ [(n, c)]))
  | plain {vars being n v o cs toks N} : (o = true ∨ vars.lookup n = none) →
      ChanceAssign E vars being cs toks N →
      ChanceAssign E vars being (.assign n v false o :: cs) toks (N.map (· ++ [(n, v)]))
  | literal {vars being n s m o cs toks N} : (o = true ∨ vars.lookup n = none) →
      ChanceAssign E vars being cs toks N →
      ChanceAssign E vars being (.assign n (.lit s m) true o :: cs) toks (N.map (· ++ [(n, .lit s m)]))
  /-- an immediate assignment binds one text of the command -/
  | immediate {vars being n v o P cs toks N} : (o = true ∨ vars.lookup n = none) →
      (∀ s m, v ≠ .lit s m) → Chance E vars being v P → ChanceAssign E vars being cs toks N →
      ChanceAssign E vars being (.assign n v true o :: cs) toks
        (P.bind fun s => N.map (· ++ [(n, .lit s none)]))
end

end Verif.Spec
