import Verif.Spec.Variables
/-!
# Templates that never run dry

`Prod E m vars being c`: when sampled with (non-combinatorial) default method `m`, variables `vars`
and variables `being` under evaluation, command `c` has a prompt to offer at any time.  The
predicate follows the structure of the template only.
-/

namespace Verif.Spec
open Verif
variable {W : Type}

/-- Weights from which `k` different options can be drawn. -/
def DrawableWeights (ws : List Rat) (k : Int) : Prop :=
  (∀ x ∈ ws, 0 ≤ x) ∧ k ≤ ws.countP (fun x => decide (0 < x))

/-- There is a selection of different options with a permitted size. -/
def SomeSelection (opts : List (Cmd × Rat)) (lo hi : Int) : Prop :=
  ∃ cs : List Cmd, cs.Nodup ∧ (∀ c ∈ cs, c ∈ opts.map (·.1)) ∧ InBounds opts.length lo hi cs.length

/-- The wildcard manager answers. -/
def Answers (E : Env W) (wc : Str) : Prop := ∀ w, ∃ items w', E.getValues wc w = .ok items w'

/-- A weighted draw from the items is possible. -/
def DrawableItems (items : List Item) : Prop :=
  (∀ i ∈ items, 0 ≤ i.weight.getD 1) ∧ ∃ i ∈ items, 0 < i.weight.getD 1

mutual
/-- The command, in a context with default method `m`. -/
inductive Prod (E : Env W) : Method → List (Str × Cmd) → List Str → Cmd → Prop
  | cmd {m vars being c} : (∀ n d, c ≠ .access n d) → ProdIn E (nest m c.method) vars being c →
      Prod E m vars being c
  | access {m vars being name d c} : Resolves E.unknown vars name d c → name ∉ being →
      Prod E m vars (name :: being) c → Prod E m vars being (.access name d)
/-- The command, sampled by the sampler of method `m`. -/
inductive ProdIn (E : Env W) : Method → List (Str × Cmd) → List Str → Cmd → Prop
  | lit {m vars being s m'} : m ≠ .comb → ProdIn E m vars being (.lit s m')
  /-- immediate assignments can be evaluated, and the tokens are productive in every resulting
  binding of the variables -/
  | seq {m vars being toks sep m'} : m ≠ .comb →
      (∀ n v o, .assign n v true o ∈ toks → Prod E m vars being v) →
      (∀ toks' new, Assigned E vars toks toks' new → ∀ c, c ∈ toks' →
        Prod E m (new ++ vars) being c) →
      ProdIn E m vars being (.seq toks sep m')
  | single {vars being c wt lo hi sep m'} : ¬ SingleWild [(c, wt)] → Prod E .random vars being c →
      ProdIn E .random vars being (.variant [(c, wt)] lo hi sep m')
  | random {vars being opts lo hi sep m'} : 2 ≤ opts.length → 0 ≤ max lo hi →
      DrawableWeights (opts.map (·.2)) (max 0 (min (max lo hi) opts.length)) →
      (∀ p, p ∈ opts → Prod E .random vars being p.1) →
      ProdIn E .random vars being (.variant opts lo hi sep m')
  | cyc {vars being opts lo hi sep m'} : ¬ SingleWild opts → opts ≠ [] →
      0 ≤ max lo hi → SomeSelection opts lo hi →
      (∀ p, p ∈ opts → Prod E .cyc vars being p.1) →
      ProdIn E .cyc vars being (.variant opts lo hi sep m')
  /-- a variant of one wildcard: the variant of the parsed values -/
  | variantWild {m vars being path m' v wt lo hi sep m''} : m ≠ .comb →
      ProdPrompt E m vars being path →
      (∀ wc, LangPrompt E vars path wc → Answers E wc) →
      (∀ wc items, LangPrompt E vars path wc → Values E wc items →
        ∃ cs, ParsesAll E (iterateWeighted items) cs) →
      (∀ wc items cs, LangPrompt E vars path wc → Values E wc items →
        ParsesAll E (iterateWeighted items) cs →
        ProdIn E m vars being (Cmd.mkVariant (cs.map (fun c => (c, 1))) (min lo items.length)
          (min hi items.length) sep m')) →
      ProdIn E m vars being (.variant [(.wild path m' v, wt)] lo hi sep m'')
  /-- a wildcard: every value is productive, and one can be drawn; without values the wildcard's
  name must be (texts are, commands must be productive) -/
  | wild {m vars being path m' v} : m ≠ .comb → ProdPrompt E m vars being path →
      (∀ wc, LangPrompt E vars path wc → Answers E wc) →
      (∀ wc c, LangPrompt E vars path wc → Values E wc [] → path = .inr c →
        ProdPrompt E m (v ++ vars) being (.inr c)) →
      (∀ wc items, LangPrompt E vars path wc → Values E wc items → items ≠ [] →
        m = .random → DrawableItems items) →
      (∀ wc items, LangPrompt E vars path wc → Values E wc items → items ≠ [] →
        m = .cyc → iterateWeighted items ≠ []) →
      (∀ wc items i, LangPrompt E vars path wc → Values E wc items → i ∈ items →
        ProdPrompt E m (v ++ vars) being (.inl i.content)) →
      ProdIn E m vars being (.wild path m' v)
  | wrap {vars being wr inn m'} : Prod E .random vars being wr → Prod E .random vars being inn →
      ProdIn E .random vars being (.wrap wr inn m')
/-- A prompt given as text or command. -/
inductive ProdPrompt (E : Env W) : Method → List (Str × Cmd) → List Str → Prompt → Prop
  | text {m vars being s c} : s ≠ [] → E.parse s = .ok c → Prod E m vars being c →
      ProdPrompt E m vars being (.inl s)
  | cmd {m vars being c} : c.truthy = true → Prod E m vars being c →
      ProdPrompt E m vars being (.inr c)
end

/-- A simple sufficient condition: literals, sequences, variants and wraps, without assignments,
variables and wildcards, without cyclical parts; every variant has an option, and all weights are
positive. -/
inductive SimpleRandom : Cmd → Prop
  | lit {s m} : m ≠ some .cyc → SimpleRandom (.lit s m)
  | seq {toks sep m} : m ≠ some .cyc → (∀ c, c ∈ toks → SimpleRandom c) →
      SimpleRandom (.seq toks sep m)
  | variant {opts lo hi sep m} : m ≠ some .cyc → opts ≠ [] → (∀ p, p ∈ opts → 0 < p.2) →
      (∀ p, p ∈ opts → SimpleRandom p.1) → 0 ≤ max lo hi →
      SimpleRandom (.variant opts lo hi sep m)
  | wrap {wr inn m} : m ≠ some .cyc → SimpleRandom wr → SimpleRandom inn →
      SimpleRandom (.wrap wr inn m)

end Verif.Spec
