import Verif.Spec.Causes
import Verif.Spec.System
/-!
# The wildcards a template may ask for
-/

namespace Verif.Spec
open Verif
variable {W : Type}

/-- Sampling the prompt may ask the wildcard manager for the values of the wildcard `wc`: a wildcard is involved whose name
can turn out to be `wc`. -/
def MayAsk (E : Env W) (ctx : Ctx) (p : Prompt) (wc : Str) : Prop :=
  ∃ path m v, Involved E ctx p (.wild path m v) ∧ Named E path wc

/-- A lookup of the wildcard `wc` looks at the collection named `n`: its name matches the wildcard, or the wildcard after
`**/`. -/
def LooksAt (wrap wc n : Str) : Prop :=
  ∃ pat, (cleanWildcard wrap wc = some pat ∨ cleanWildcard wrap (c!"**/" ++ wc) = some pat) ∧ fnmatch n pat = true

/-- Two lists of collections are the same, with the same values now, apart from collections whose name is not in `U`. -/
inductive SameUsed (U : Str → Prop) (fs fs' : FNode) : List (Str × RawColl) → List (Str × RawColl) → Prop
  | nil : SameUsed U fs fs' [] []
  | left {n c m m'} : ¬ U n → SameUsed U fs fs' m m' → SameUsed U fs fs' ((n, c) :: m) m'
  | right {n c m m'} : ¬ U n → SameUsed U fs fs' m m' → SameUsed U fs fs' m ((n, c) :: m')
  | both {n c c' m m'} : (∀ vs, Holds fs c vs ↔ Holds fs' c' vs) → SameUsed U fs fs' m m' →
      SameUsed U fs fs' ((n, c) :: m) ((n, c') :: m')

end Verif.Spec
