import Verif.Model.Engine
/-!
# Multiplying the weights of a template
-/

namespace Verif

mutual
/-- The command with the weights of all its options, at every depth, multiplied by `q`. -/
def Cmd.scale (q : Rat) : Cmd → Cmd
  | .lit s m => .lit s m
  | .seq toks sep m => .seq (Cmd.scaleL q toks) sep m
  | .variant opts lo hi sep m => .variant (Cmd.scaleO q opts) lo hi sep m
  | .wild (.inl p) m v => .wild (.inl p) m (Cmd.scaleV q v)
  | .wild (.inr p) m v => .wild (.inr (p.scale q)) m (Cmd.scaleV q v)
  | .assign n v i o => .assign n (v.scale q) i o
  | .access n none => .access n none
  | .access n (some d) => .access n (some (d.scale q))
  | .wrap w i m => .wrap (w.scale q) (i.scale q) m
/-- In a list of commands. -/
def Cmd.scaleL (q : Rat) : List Cmd → List Cmd
  | [] => []
  | c :: cs => c.scale q :: Cmd.scaleL q cs
/-- In the options of a variant. -/
def Cmd.scaleO (q : Rat) : List (Cmd × Rat) → List (Cmd × Rat)
  | [] => []
  | (c, x) :: cs => (c.scale q, q * x) :: Cmd.scaleO q cs
/-- In variables with their values. -/
def Cmd.scaleV (q : Rat) : List (Str × Cmd) → List (Str × Cmd)
  | [] => []
  | (n, c) :: cs => (n, c.scale q) :: Cmd.scaleV q cs
end

end Verif

namespace Verif.Spec
open Verif
variable {W : Type}

/-- Multiplying all numbers by `q` multiplies sums and products with random numbers by `q`.  (True of every positive number
for exact arithmetic, and of powers of two for floating point.) -/
structure Proportional (A : Arith) (q : Rat) : Prop where
  positive : 0 < q
  plus : ∀ a b, A.plus (q * a) (q * b) = q * A.plus a b
  times : ∀ u t, A.times u (q * t) = q * A.times u t

/-- Variables whose values have multiplied weights, each value by `q` or not at all. -/
inductive ScaledVars (q : Rat) : List (Str × Cmd) → List (Str × Cmd) → Prop
  | nil : ScaledVars q [] []
  | same {n c vs vs'} : ScaledVars q vs vs' → ScaledVars q ((n, c) :: vs) ((n, c) :: vs')
  | scaled {n c vs vs'} : ScaledVars q vs vs' → ScaledVars q ((n, c) :: vs) ((n, c.scale q) :: vs')

/-- A template and the template with its weights multiplied. -/
inductive ScaledPrompt (E : Env W) (q : Rat) : Prompt → Prompt → Prop
  | cmd {c} : ScaledPrompt E q (.inr c) (.inr (c.scale q))
  | text {t t' c} : t ≠ [] → t' ≠ [] → E.parse t = .ok c → E.parse t' = .ok (c.scale q) →
      ScaledPrompt E q (.inl t) (.inl t')

/-- Two runs end in the same way and in the same state. -/
def SameEnding : Stop W → Stop W → Prop
  | .limit _ w, .limit _ w' => w = w'
  | .stop w, .stop w' => w = w'
  | .raised e w, .raised e' w' => e = e' ∧ w = w'
  | .fuel, .fuel => True
  | _, _ => False

/-! ### A factor of its own for each choice -/

mutual
/-- The two commands differ only in weights, and in each choice the weights are in the same proportion.  Where a choice may
pick more than one option, different options stay different. -/
inductive Reweighted : Cmd → Cmd → Prop
  | same {c} : Reweighted c c
  | seq {toks toks' sep m} : ReweightedAll toks toks' → Reweighted (.seq toks sep m) (.seq toks' sep m)
  | variant {q opts opts' lo hi sep m} : 0 < q → ReweightedOptions q opts opts' →
      (2 ≤ max lo hi → (opts.map (·.1)).Nodup → (opts'.map (·.1)).Nodup) →
      Reweighted (.variant opts lo hi sep m) (.variant opts' lo hi sep m)
  | wild {path m v v'} : ReweightedVars v v' → Reweighted (.wild path m v) (.wild path m v')
  | wildPath {c c' m v v'} : Reweighted c c' → ReweightedVars v v' → Reweighted (.wild (.inr c) m v) (.wild (.inr c') m v')
  | assign {n v v' i o} : Reweighted v v' → Reweighted (.assign n v i o) (.assign n v' i o)
  | access {n d d'} : Reweighted d d' → Reweighted (.access n (some d)) (.access n (some d'))
  | wrap {w w' i i' m} : Reweighted w w' → Reweighted i i' → Reweighted (.wrap w i m) (.wrap w' i' m)
/-- Lists of commands. -/
inductive ReweightedAll : List Cmd → List Cmd → Prop
  | nil : ReweightedAll [] []
  | cons {c c' cs cs'} : Reweighted c c' → ReweightedAll cs cs' → ReweightedAll (c :: cs) (c' :: cs')
/-- The options of one choice: all weights are multiplied by `q`. -/
inductive ReweightedOptions : Rat → List (Cmd × Rat) → List (Cmd × Rat) → Prop
  | nil {q} : ReweightedOptions q [] []
  | cons {q c c' x cs cs'} : Reweighted c c' → ReweightedOptions q cs cs' →
      ReweightedOptions q ((c, x) :: cs) ((c', q * x) :: cs')
/-- Variables and their values. -/
inductive ReweightedVars : List (Str × Cmd) → List (Str × Cmd) → Prop
  | nil : ReweightedVars [] []
  | cons {n c c' vs vs'} : Reweighted c c' → ReweightedVars vs vs' → ReweightedVars ((n, c) :: vs) ((n, c') :: vs')
end

/-- Two templates which differ only in this way. -/
inductive ReweightedPrompt (E : Env W) : Prompt → Prompt → Prop
  | cmd {c c'} : Reweighted c c' → ReweightedPrompt E (.inr c) (.inr c')
  | text {t t' c c'} : t ≠ [] → t' ≠ [] → E.parse t = .ok c → E.parse t' = .ok c' → Reweighted c c' →
      ReweightedPrompt E (.inl t) (.inl t')

end Verif.Spec
