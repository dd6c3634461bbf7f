import Verif.Spec.Chances
import Verif.Spec.Lists
/-!
# Other ways to write a template
-/

namespace Verif.Spec
open Verif
variable {W : Type}

mutual
/-- The second command is the first one with parts, at any depth, replaced as `R` says; but not in what is assigned to
variables. -/
inductive Within (R : Cmd → Cmd → Prop) : Cmd → Cmd → Prop
  | law {c c'} : R c c' → Within R c c'
  | same {c} : Within R c c
  | trans {c c' c''} : Within R c c' → Within R c' c'' → Within R c c''
  /-- inside the options of a choice, which all differ -/
  | variant {opts opts' lo hi sep m} : WithinOptions R opts opts' → (opts.map (·.1)).Nodup → (opts'.map (·.1)).Nodup →
      Within R (.variant opts lo hi sep m) (.variant opts' lo hi sep m)
  /-- inside the options of a choice of one -/
  | one {opts opts' sep m} : WithinOptions R opts opts' → Within R (.variant opts 1 1 sep m) (.variant opts' 1 1 sep m)
  | seq {toks toks' sep m} : WithinAll R toks toks' → Within R (.seq toks sep m) (.seq toks' sep m)
  | wrap {w w' i i' m} : Within R w w' → Within R i i' → Within R (.wrap w i m) (.wrap w' i' m)
/-- Lists of commands. -/
inductive WithinAll (R : Cmd → Cmd → Prop) : List Cmd → List Cmd → Prop
  | nil : WithinAll R [] []
  | cons {c c' cs cs'} : Within R c c' → WithinAll R cs cs' → WithinAll R (c :: cs) (c' :: cs')
/-- The options of a choice; the weights are the same. -/
inductive WithinOptions (R : Cmd → Cmd → Prop) : List (Cmd × Rat) → List (Cmd × Rat) → Prop
  | nil : WithinOptions R [] []
  | cons {c c' x cs cs'} : Within R c c' → WithinOptions R cs cs' → WithinOptions R ((c, x) :: cs) ((c', x) :: cs')
end

/-- Two templates related in this way. -/
inductive WithinPrompt (E : Env W) (R : Cmd → Cmd → Prop) : Prompt → Prompt → Prop
  | cmd {c c'} : Within R c c' → WithinPrompt E R (.inr c) (.inr c')
  | text {t t' c c'} : t ≠ [] → t' ≠ [] → E.parse t = .ok c → E.parse t' = .ok c' → Within R c c' →
      WithinPrompt E R (.inl t) (.inl t')

/-- An option of weight `x` is written several times: in a choice of one among two or more options, it is replaced by copies of
it whose weights add up to `x`. -/
inductive Copies : Cmd → Cmd → Prop
  | mk {before c x ws after sep m} : ws ≠ [] → (∀ w ∈ ws, 0 ≤ w) → ws.sum = x → before ++ after ≠ [] →
      Copies (.variant (before ++ (c, x) :: after) 1 1 sep m)
        (.variant (before ++ ws.map (fun w => (c, w)) ++ after) 1 1 sep m)

/-- A choice inside a choice. -/
inductive Nested : Cmd → Cmd → Prop
  /-- an option that is itself a choice of one is replaced by its options, which share its weight in proportion to theirs -/
  | choice {before inner x after sep sep' m m'} : before ++ after ≠ [] → 2 ≤ inner.length → (∀ p ∈ inner, 0 ≤ p.2) →
      0 < total inner →
      Nested (.variant (before ++ (.variant inner 1 1 sep' m', x) :: after) 1 1 sep m)
        (.variant (before ++ inner.map (fun p => (p.1, x * p.2 / total inner)) ++ after) 1 1 sep m)
  /-- braces around a choice of one -/
  | braces {opts x sep sep' m} : 2 ≤ opts.length →
      Nested (.variant [(.variant opts 1 1 sep m, x)] 1 1 sep' m) (.variant opts 1 1 sep m)
  /-- braces around a text -/
  | text {s x sep m} : Nested (.variant [(.lit s m, x)] 1 1 sep m) (.lit s m)

/-- Parts of a sequence, put together in another way. -/
inductive Grouped : Cmd → Cmd → Prop
  /-- a sequence of one part, neither an assignment nor a wildcard -/
  | single {c m} : (∀ n v i o, c ≠ .assign n v i o) → (∀ p m v, c ≠ .wild p m v) → c.truthy = true → c.method = m →
      Grouped (.seq [c] [] m) c
  /-- a text is two texts -/
  | split {a b m} : Grouped (.lit (a ++ b) m) (.seq [.lit a m, .lit b m] [] m)
  /-- a text in a sequence is two texts -/
  | parts {before a b after m m'} : m' ≠ some .cyc →
      Grouped (.seq (before ++ .lit (a ++ b) m' :: after) [] m) (.seq (before ++ .lit a m' :: .lit b m' :: after) [] m)
  /-- two texts are one text -/
  | texts {before a b after m m'} : m' ≠ some .cyc →
      Grouped (.seq (before ++ .lit a m' :: .lit b m' :: after) [] m) (.seq (before ++ .lit (a ++ b) m' :: after) [] m)
  /-- a sequence inside a sequence, which assigns nothing -/
  | splice {before inner after m} : inner ≠ [] → (∀ c ∈ inner, ∀ n v i o, c ≠ .assign n v i o) →
      Grouped (.seq (before ++ .seq inner [] none :: after) [] m) (.seq (before ++ inner ++ after) [] m)

/-- The common beginning or end of the options of a choice of one is taken out of the choice. -/
inductive Common : Cmd → Cmd → Prop
  | beginning {s} {opts : List (List Cmd × Rat)} {sep m} : 2 ≤ opts.length → (∀ p ∈ opts, ∀ c ∈ p.1, c.method = none) →
      Common (.variant (opts.map fun p => (.seq (.lit s none :: p.1) [] none, p.2)) 1 1 sep m)
        (.seq [.lit s none, .variant (opts.map fun p => (.seq p.1 [] none, p.2)) 1 1 sep m] [] m)
  | ending {s} {opts : List (List Cmd × Rat)} {sep m} : 2 ≤ opts.length → (∀ p ∈ opts, ∀ c ∈ p.1, c.method = none) →
      Common (.variant (opts.map fun p => (.seq (p.1 ++ [.lit s none]) [] none, p.2)) 1 1 sep m)
        (.seq [.variant (opts.map fun p => (.seq p.1 [] none, p.2)) 1 1 sep m, .lit s none] [] m)

/-- Any of these laws. -/
inductive Law : Cmd → Cmd → Prop
  | copies {c c'} : Copies c c' → Law c c'
  | nested {c c'} : Nested c c' → Law c c'
  | grouped {c c'} : Grouped c c' → Law c c'
  | common {c c'} : Common c c' → Law c c'

end Verif.Spec
