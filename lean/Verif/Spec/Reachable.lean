import Verif.Spec.Productive
/-!
# What random sampling could produce

`Could E vars being c s` says that a random sampler could produce the text `s` from the command `c`
if the random numbers fall right.  It is a grammar like `Lang`, with the conditions that make a
choice possible: weights are not negative, what is chosen has a positive weight, variables are not
defined by themselves, and no part of the template is cyclical.

`Draws` is a source of random numbers whose future outcomes are given as a list.
-/

namespace Verif.Spec
open Verif

/-- One outcome of a random draw. -/
inductive Draw where
  /-- an integer draw -/
  | below (k : Nat)
  /-- a draw from [0, 1) -/
  | unit (q : {q : Rat // 0 ≤ q ∧ q < 1})

/-- The outcomes of the draws to come. -/
abbrev Draws := List Draw

/-- The source of random numbers that produces the given outcomes (and zero if the next outcome does
not fit or there is none left), with exact arithmetic. -/
def drawn : Rng Draws where
  arith := .exact
  below n
    | .below k :: w => (if h : k < n + 1 then ⟨k, h⟩ else 0, w)
    | _ :: w => (0, w)
    | [] => (0, [])
  unit
    | .unit q :: w => (q, w)
    | _ :: w => (⟨0, by decide, by decide⟩, w)
    | [] => (⟨0, by decide, by decide⟩, [])

variable {W : Type}

/-- The wildcard manager always answers with `items` for the wildcard `wc`. -/
def Gives (E : Env W) (wc : Str) (items : List Item) : Prop := ∀ w, E.getValues wc w = .ok items w

mutual
/-- The command, in a random context. -/
inductive Could (E : Env W) : List (Str × Cmd) → List Str → Cmd → Str → Prop
  | cmd {vars being c s} : c.method ≠ some .cyc → CouldIn E vars being c s → Could E vars being c s
  | access {vars being name d c s} : Resolves E.unknown vars name d c → name ∉ being →
      Could E vars (name :: being) c s → Could E vars being (.access name d) s
/-- The command, sampled by the random sampler. -/
inductive CouldIn (E : Env W) : List (Str × Cmd) → List Str → Cmd → Str → Prop
  | lit {vars being s m} : CouldIn E vars being (.lit s m) s
  | seq {vars being toks sep m toks' new strs} : CouldAssign E vars being toks toks' new →
      CouldAll E (new ++ vars) being toks' strs → CouldIn E vars being (.seq toks sep m) (joined sep strs)
  /-- all weights positive: any permitted number of options, in any order -/
  | variant {vars being opts lo hi sep m cs strs} : 2 ≤ opts.length → 0 ≤ max lo hi →
      (∀ p ∈ opts, 0 < p.2) → cs.Subperm (opts.map (·.1)) → InBounds opts.length lo hi cs.length →
      CouldAll E vars being cs strs → CouldIn E vars being (.variant opts lo hi sep m) (joined sep strs)
  /-- one option, if it has a positive weight -/
  | variantOne {vars being opts lo hi sep m c wt s} : 2 ≤ opts.length →
      (∀ p ∈ opts, 0 ≤ p.2) → (c, wt) ∈ opts → 0 < wt → InBounds opts.length lo hi 1 →
      Could E vars being c s → CouldIn E vars being (.variant opts lo hi sep m) s
  | variantSingle {vars being c wt lo hi sep m s} : ¬ SingleWild [(c, wt)] → Could E vars being c s →
      CouldIn E vars being (.variant [(c, wt)] lo hi sep m) s
  | variantWild {vars being path m' v wt lo hi sep m wc items cs s} : CouldPrompt E vars being path wc →
      Gives E wc items → ParsesAll E (iterateWeighted items) cs →
      CouldIn E vars being (Cmd.mkVariant (cs.map (fun c => (c, 1))) (min lo items.length)
        (min hi items.length) sep m') s →
      CouldIn E vars being (.variant [(.wild path m' v, wt)] lo hi sep m) s
  | wild {vars being path m v wc items item s} : CouldPrompt E vars being path wc →
      Gives E wc items → (∀ i ∈ items, 0 ≤ i.weight.getD 1) → item ∈ items → 0 < item.weight.getD 1 →
      CouldPrompt E (v ++ vars) being (.inl item.content) s → CouldIn E vars being (.wild path m v) s
  | wildMissing {vars being p m v wc} : CouldPrompt E vars being (.inl p) wc → Gives E wc [] →
      CouldIn E vars being (.wild (.inl p) m v) (E.toWildcard p)
  | wildMissingCmd {vars being c m v wc wc'} : CouldPrompt E vars being (.inr c) wc → Gives E wc [] →
      CouldPrompt E (v ++ vars) being (.inr c) wc' →
      CouldIn E vars being (.wild (.inr c) m v) (E.toWildcard wc')
  | wrap {vars being wr i m w s} : Could E vars being wr w → Could E vars being i s →
      CouldIn E vars being (.wrap wr i m) (wrapWith w s)
/-- Texts of a list of commands, one each. -/
inductive CouldAll (E : Env W) : List (Str × Cmd) → List Str → List Cmd → List Str → Prop
  | nil {vars being} : CouldAll E vars being [] []
  | cons {vars being c cs s strs} : Could E vars being c s → CouldAll E vars being cs strs →
      CouldAll E vars being (c :: cs) (s :: strs)
/-- Texts of a prompt, with whitespace squashed if so configured. -/
inductive CouldPrompt (E : Env W) : List (Str × Cmd) → List Str → Prompt → Str → Prop
  | text {vars being p c s} : p ≠ [] → E.parse p = .ok c → Could E vars being c s →
      CouldPrompt E vars being (.inl p) (if E.ignoreWs then squashWhitespace s else s)
  | cmd {vars being c s} : c.truthy = true → Could E vars being c s →
      CouldPrompt E vars being (.inr c) (if E.ignoreWs then squashWhitespace s else s)
/-- The tokens and the bindings of a sequence, compare `Assigned`. -/
inductive CouldAssign (E : Env W) :
    List (Str × Cmd) → List Str → List Cmd → List Cmd → List (Str × Cmd) → Prop
  | nil {vars being} : CouldAssign E vars being [] [] []
  | tok {vars being c cs toks new} : (∀ n v i o, c ≠ .assign n v i o) →
      CouldAssign E vars being cs toks new → CouldAssign E vars being (c :: cs) (c :: toks) new
  /-- `?=` keeps an existing value -/
  | keep {vars being n v i c cs toks new} : vars.lookup n = some c →
      CouldAssign E vars being cs toks new →
      CouldAssign E vars being (.assign n v i false :: cs) toks (new ++ [(n, c)])
  | plain {vars being n v o cs toks new} : (o = true ∨ vars.lookup n = none) →
      CouldAssign E vars being cs toks new →
      CouldAssign E vars being (.assign n v false o :: cs) toks (new ++ [(n, v)])
  | literal {vars being n s m o cs toks new} : (o = true ∨ vars.lookup n = none) →
      CouldAssign E vars being cs toks new →
      CouldAssign E vars being (.assign n (.lit s m) true o :: cs) toks (new ++ [(n, .lit s m)])
  /-- an immediate assignment binds one text that the command could have -/
  | immediate {vars being n v o s cs toks new} : (o = true ∨ vars.lookup n = none) →
      (∀ s m, v ≠ .lit s m) → Could E vars being v s → CouldAssign E vars being cs toks new →
      CouldAssign E vars being (.assign n v true o :: cs) toks (new ++ [(n, .lit s none)])
end

/-- Templates of literals, sequences, choices and wraps as the parser makes them (sequences without
separator, a choice with one option takes that option), without variables, wildcards and cyclical
parts, all weights positive. -/
inductive PlainRandom : Cmd → Prop
  | lit {s m} : m ≠ some .cyc → PlainRandom (.lit s m)
  | seq {toks m} : m ≠ some .cyc → (∀ c, c ∈ toks → PlainRandom c) → PlainRandom (.seq toks [] m)
  | variant {opts lo hi sep m} : m ≠ some .cyc → opts ≠ [] → (∀ p, p ∈ opts → 0 < p.2) →
      (∀ p, p ∈ opts → PlainRandom p.1) → 0 ≤ max lo hi →
      (opts.length = 1 → 1 ≤ lo ∧ 1 ≤ hi) →
      PlainRandom (.variant opts lo hi sep m)
  | wrap {wr inn m} : m ≠ some .cyc → PlainRandom wr → PlainRandom inn →
      PlainRandom (.wrap wr inn m)

end Verif.Spec
