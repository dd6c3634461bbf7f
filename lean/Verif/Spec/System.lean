import Verif.Model.System
import Verif.Spec.Manager
/-!
# Specification of sampling with a wildcard manager

A shelf says once and for all what every wildcard stands for.  Sampling from a shelf needs no manager,
no cache and no files.
-/

namespace Verif.Spec
open Verif
variable {R S : Type}

/-- The shelf holds, for every wildcard, the values found in the files, arranged as asked; a wildcard
for which a file cannot be read gives an OSError. -/
def OnShelf (cfg : MgrCfg R) (fs : FNode) (sort dedup : Bool) (shelf : Str → Except Err (List Item)) :
    Prop :=
  ∀ wc, (∀ found, Finds cfg fs wc found → ∃ out, shelf wc = .ok out ∧ Arranged sort dedup found out) ∧
    ((¬ ∃ found, Finds cfg fs wc found) → shelf wc = .error .os)

/-- The sampling context with a shelf in place of the manager: only the random generator changes. -/
def withShelf (c : SysCfg R S) (shelf : Str → Except Err (List Item)) : Env S where
  rng := c.rng
  parse := parse c.parser
  ignoreWs := c.ignoreWs
  unknown := c.unknown
  toWildcard := toWildcard c.mgr.wrap
  getValues wc := M.lift (shelf wc)

end Verif.Spec
