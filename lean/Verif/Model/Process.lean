import Verif.Model.System
import Verif.Model.Generators
/-!
# Several generators and iterators in one process

Sampling contexts and generators share the wildcard manager and may share a random generator object.
Iterators over prompts are lazy, and a program may advance them in any order.  Paths are relative to
`src/dynamicprompts`.
-/

namespace Verif
variable {W : Type}

/-- A sampling context (`sampling_context.py:34-51`, a frozen dataclass) without its wildcard manager and
its `rand`. -/
structure CtxObj where
  parser : ParserCfg
  ignoreWs : Bool
  unknown : Option Cmd
  ctx : Ctx

/-- The context a generator makes (`generators/randomprompt.py:35-44`, `generators/combinatorial.py:23-28`). -/
def generatorObj (m : Method) (parser : ParserCfg) (ignoreWs : Bool) : CtxObj :=
  ⟨parser, ignoreWs, none, generatorCtx m⟩

/-- What a program can do with the contexts and generators that use one random generator object. -/
inductive Act where
  /-- `rand.seed(n)`; `RandomPromptGenerator(seed=n)` does this with a new object
  (`generators/randomprompt.py:16-22`) -/
  | seed (n : Int)
  /-- `RandomPromptGenerator.generate(template, num, seeds=seeds)` -/
  | random (parser : ParserCfg) (ignoreWs : Bool) (template : Str) (num : Int) (seeds : Seeds)
  /-- `CombinatorialPromptGenerator.generate(template, max)` -/
  | comb (parser : ParserCfg) (ignoreWs : Bool) (template : Str) (max : Option Int)
  /-- `iterator_j = context.sample_prompts(prompt)` -/
  | iterate (j : Nat) (o : CtxObj) (p : Prompt)
  /-- `next(iterator_j)` -/
  | next (j : Nat)

/-- What the program sees; `none` in place of a result means that the call did not answer within the
fuel. -/
inductive Answer where
  | nothing
  | prompts (r : Option (Except Err (List Str)))
  | opened (r : Except Err Unit)
  /-- a prompt, or StopIteration -/
  | prompt (r : Option (Except Err (Option Str)))

/-- The iterators of a program, by name. -/
abbrev Iters := Nat → CtxObj × Gen

/-- Give the name `j` to an iterator. -/
def Iters.set (its : Iters) (j : Nat) (o : CtxObj) (g : Gen) : Iters :=
  fun i => if i = j then (o, g) else its i

/-- The result as the caller sees it, and the world after it. -/
def Res.split {α : Type} (w : W) : Res W α → Option (Except Err α) × W
  | .ok a w' => (some (.ok a), w')
  | .err e w' => (some (.error e), w')
  | .fuel => (none, w)

/-- One action.  `env` is the environment a context works in.  A generator object that was exhausted or
raised an exception is finished. -/
def Act.run (env : CtxObj → Env W) (reseed : Int → W → W) (fuel : Nat) :
    Act → Iters → W → Answer × Iters × W
  | .seed n, its, w => (.nothing, its, reseed n w)
  | .random parser ws t num seeds, its, w =>
    let x := (randomGenerate (env (generatorObj .random parser ws)) fuel reseed t num seeds w).split w
    (.prompts x.1, its, x.2)
  | .comb parser ws t max, its, w =>
    let x := (combGenerate (env (generatorObj .comb parser ws)) fuel t max w).split w
    (.prompts x.1, its, x.2)
  | .iterate j o p, its, w =>
    match sampleGen (env o) o.ctx p with
    | .error e => (.opened (.error e), its, w)
    | .ok g => (.opened (.ok ()), its.set j o g, w)
  | .next j, its, w =>
    match nextG (env (its j).1) fuel (its j).2 w with
    | .ok none w' => (.prompt (some (.ok none)), its.set j (its j).1 .done, w')
    | .ok (some (v, g)) w' => (.prompt (some (.ok (some v))), its.set j (its j).1 g, w')
    | .err e w' => (.prompt (some (.error e)), its.set j (its j).1 .done, w')
    | .fuel => (.prompt none, its, w)

variable {R S : Type}

/-- What all contexts of a process share: the manager's configuration and the kind of random generator. -/
structure ProcCfg (R S : Type) where
  mgr : MgrCfg R
  rng : Rng S
  seed : Int → S → S

/-- The environment of a context. -/
def ProcCfg.sys (c : ProcCfg R S) (o : CtxObj) : SysCfg R S :=
  { mgr := c.mgr, parser := o.parser, rng := c.rng, ignoreWs := o.ignoreWs, unknown := o.unknown }

/-- A random generator object (`random.Random`) and the iterators of the contexts that use it. -/
structure User (S : Type) where
  rand : S
  iters : Iters

/-- A process: one wildcard manager, and random generator objects by name; `DEFAULT_RANDOM`
(`constants.py:8`), which unlinked and combinatorial generators use, is one of them. -/
structure Proc (R S : Type) where
  mgr : Mgr R
  users : Nat → User S

/-- An action of a user. -/
def Proc.act (c : ProcCfg R S) (fuel : Nat) (u : Nat) (a : Act) (p : Proc R S) : Answer × Proc R S :=
  let x := a.run (fun o => system (c.sys o)) (Sys.reseed c.seed) fuel (p.users u).iters ⟨p.mgr, (p.users u).rand⟩
  (x.1, { mgr := x.2.2.mgr, users := fun v => if v = u then ⟨x.2.2.rand, x.2.1⟩ else p.users v })

end Verif
