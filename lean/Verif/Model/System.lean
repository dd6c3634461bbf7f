import Verif.Model.Engine
import Verif.Model.Manager
import Verif.Model.Parser
/-!
# The parts together: sampling context, parser and wildcard manager

The engine (`Model/Engine.lean`) was modelled for an arbitrary parser and an arbitrary wildcard
manager.  Here it gets the modelled ones.
-/

namespace Verif
variable {R S : Type}

/-- What sampling works on: the wildcard manager with its files (`sampling_context.py:37`
`wildcard_manager`) and the state of the context's own `rand` (`sampling_context.py:43`).  The manager
shuffles with the `random` module, which is another random generator (`constants.py` makes
`DEFAULT_RANDOM` a new `Random`). -/
structure Sys (R S : Type) where
  mgr : Mgr R
  rand : S

/-- What stays fixed: `SamplingContext` without the default method and the variables
(`sampling_context.py:35-49`), and the manager's configuration. -/
structure SysCfg (R S : Type) where
  mgr : MgrCfg R
  parser : ParserCfg
  rng : Rng S
  ignoreWs : Bool
  unknown : Option Cmd

/-- A method of the manager, called while sampling. -/
def Sys.onMgr {α : Type} (x : M (Mgr R) α) : M (Sys R S) α := fun s =>
  match x s.mgr with
  | .ok a m => .ok a { s with mgr := m }
  | .err e m => .err e { s with mgr := m }
  | .fuel => .fuel

/-- The context's random generator. -/
def Sys.onRand (r : Rng S) : Rng (Sys R S) where
  arith := r.arith
  below n s := let x := r.below n s.rand; (x.1, { s with rand := x.2 })
  unit s := let x := r.unit s.rand; (x.1, { s with rand := x.2 })

/-- The sampling context with the modelled parser (`sampling_context.py:121-133`) and the modelled
manager: `get_values` as called by the samplers (`samplers/random.py:119`,
`samplers/combinatorial.py:148`, `samplers/cycle.py:104`, `samplers/utils.py:28`) and `to_wildcard`
(`samplers/utils.py:59`). -/
def system (c : SysCfg R S) : Env (Sys R S) where
  rng := Sys.onRand c.rng
  parse := parse c.parser
  ignoreWs := c.ignoreWs
  unknown := c.unknown
  toWildcard := toWildcard c.mgr.wrap
  getValues w := Sys.onMgr (Mgr.getValues c.mgr w)

/-- Re-seeding the context's random generator (`generators/randomprompt.py:68` `rand.seed(seed)`). -/
def Sys.reseed (seed : Int → S → S) (n : Int) (s : Sys R S) : Sys R S := { s with rand := seed n s.rand }

end Verif
