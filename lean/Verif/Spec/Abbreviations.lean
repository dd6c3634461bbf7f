import Verif.Spec.Chances
import Verif.Spec.Lists
/-!
# Variables as abbreviations
-/

namespace Verif.Spec
open Verif
variable {W : Type}

/-- A command without variables; neither do the values of its wildcards use any. -/
inductive NoVariables (E : Env W) : Cmd → Prop
  | lit {s m} : NoVariables E (.lit s m)
  | seq {toks sep m} : (∀ c, c ∈ toks → NoVariables E c) → NoVariables E (.seq toks sep m)
  | variant {opts lo hi sep m} : (∀ p, p ∈ opts → NoVariables E p.1) → NoVariables E (.variant opts lo hi sep m)
  | wrap {w i m} : NoVariables E w → NoVariables E i → NoVariables E (.wrap w i m)
  | wild {name m} : E.parse name = .ok (.lit name none) →
      (∀ items, Values E (squashIf E.ignoreWs name) items → ∀ i, i ∈ items → ∀ c, E.parse i.content = .ok c → NoVariables E c) →
      NoVariables E (.wild (.inl name) m [])

/-- The parts of a sequence that are not assignments, and what the assignments (none of them has to be sampled at once) bind. -/
inductive BindsLate (vars : List (Str × Cmd)) : List Cmd → List Cmd → List (Str × Cmd) → Prop
  | nil : BindsLate vars [] [] []
  | part {c cs toks new} : (∀ n v i o, c ≠ .assign n v i o) → BindsLate vars cs toks new → BindsLate vars (c :: cs) (c :: toks) new
  /-- `?=` keeps an existing value -/
  | keep {n v i cs toks new c} : vars.lookup n = some c → BindsLate vars cs toks new →
      BindsLate vars (.assign n v i false :: cs) toks (new ++ [(n, c)])
  | set {n v o cs toks new} : (o = true ∨ vars.lookup n = none) → BindsLate vars cs toks new →
      BindsLate vars (.assign n v false o :: cs) toks (new ++ [(n, v)])
  | text {n s m o cs toks new} : (o = true ∨ vars.lookup n = none) → BindsLate vars cs toks new →
      BindsLate vars (.assign n (.lit s m) true o :: cs) toks (new ++ [(n, .lit s m)])

mutual
/-- With the variables `vars`, the second command is the first one without its assignments, and with what variables stand for
in place of the variables. -/
inductive Inlined (E : Env W) : List (Str × Cmd) → Cmd → Cmd → Prop
  | same {vars c} : NoVariables E c → Inlined E vars c c
  | access {vars name d c c'} : Resolves E.unknown vars name d c → Inlined E vars c c' → Inlined E vars (.access name d) c'
  | seq {vars toks rest new rest' sep m} : BindsLate vars toks rest new → InlinedAll E (new ++ vars) rest rest' →
      Inlined E vars (.seq toks sep m) (.seq rest' sep m)
  /-- the options of a choice stay different; the only one is not a wildcard -/
  | variant {vars opts opts' lo hi sep m} : InlinedOptions E vars opts opts' → (opts.map (·.1)).Nodup →
      (opts'.map (·.1)).Nodup → ¬ SingleWild opts' → Inlined E vars (.variant opts lo hi sep m) (.variant opts' lo hi sep m)
  | wrap {vars w w' i i' m} : Inlined E vars w w' → Inlined E vars i i' → w'.truthy = w.truthy → i'.truthy = i.truthy →
      Inlined E vars (.wrap w i m) (.wrap w' i' m)
/-- Lists of commands. -/
inductive InlinedAll (E : Env W) : List (Str × Cmd) → List Cmd → List Cmd → Prop
  | nil {vars} : InlinedAll E vars [] []
  | cons {vars c c' cs cs'} : Inlined E vars c c' → InlinedAll E vars cs cs' → InlinedAll E vars (c :: cs) (c' :: cs')
/-- The options of a choice; the weights are the same. -/
inductive InlinedOptions (E : Env W) : List (Str × Cmd) → List (Cmd × Rat) → List (Cmd × Rat) → Prop
  | nil {vars} : InlinedOptions E vars [] []
  | cons {vars c c' x cs cs'} : Inlined E vars c c' → InlinedOptions E vars cs cs' →
      InlinedOptions E vars ((c, x) :: cs) ((c', x) :: cs')
end

/-- Two templates related in this way. -/
inductive InlinedPrompt (E : Env W) : List (Str × Cmd) → Prompt → Prompt → Prop
  | cmd {vars c c'} : Inlined E vars c c' → c'.truthy = c.truthy → InlinedPrompt E vars (.inr c) (.inr c')
  | text {vars t t' c c'} : t ≠ [] → t' ≠ [] → E.parse t = .ok c → E.parse t' = .ok c' → Inlined E vars c c' →
      InlinedPrompt E vars (.inl t) (.inl t')

end Verif.Spec
