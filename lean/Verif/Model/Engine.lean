import Verif.Model.Monad
/-!
# The sampling engine

Python generators are first-order state values (`Gen` and the frames below); `next(g)` is a
function of the state and the world.  A generator body that loops without yielding is cut off by
fuel; see `nextG`.

Files modelled: `sampling_context.py`, `samplers/base.py`, `samplers/random.py`,
`samplers/cycle.py`, `samplers/combinatorial.py`, `samplers/command_collection.py`,
`samplers/utils.py`, and the generator helpers of `utils.py`.  Paths below are relative to
`src/dynamicprompts`.  Warnings and logging are not modelled.
-/

namespace Verif

/-- The parts of `SamplingContext` that vary during sampling
(`sampling_context.py:34-51`): the default sampling method, the variables (first match wins),
and the variables being sampled. -/
structure Ctx where
  method : Method
  vars : List (Str × Cmd)
  being : List Str

/-- The parts of `SamplingContext` that stay fixed: parser, whitespace flag, unknown variable value
(`sampling_context.py:48`; a string value is represented by the literal command the code makes of it
in `samplers/base.py:99-100`), wildcard manager and random source. -/
structure Env (W : Type) where
  rng : Rng W
  parse : Str → Except Err Cmd
  ignoreWs : Bool
  unknown : Option Cmd
  toWildcard : Str → Str
  getValues : Str → M W (List Item)

/-! ## Choosing the sampler -/

/-- Models `sampling_context.py:60-83` `get_sampler_and_context`: the method whose sampler is used
and which becomes the new default. -/
def effMethod (cur : Method) (own : Option Method) : Method :=
  match own with
  | none => cur
  | some m =>
    if m ≠ cur then
      if cur.nonfinite then
        if !m.nonfinite then cur else m
      else m
    else cur

/-- Models `sampling_context.py:134-137` `get_effective_sampling_method`. -/
def Ctx.effective (ctx : Ctx) (c : Cmd) : Method :=
  match c.method with
  | some m => m
  | none => ctx.method

/-- Models `sampling_context.py:85-88` `with_variables`; `new` is searched first. -/
def Ctx.withVars (ctx : Ctx) (new : List (Str × Cmd)) : Ctx := { ctx with vars := new ++ ctx.vars }

/-- Models `sampling_context.py:53-54` `with_sampling_method`. -/
def Ctx.withMethod (ctx : Ctx) (m : Method) : Ctx := { ctx with method := m }

/-! ## Generator states -/

mutual
/-- State of a generator of texts. -/
inductive Gen where
  /-- finished -/
  | done
  /-- not started: body of `_get_literal`/`_get_sequence`/`_get_variant`/`_get_wildcard`/`_get_wrap`
  of the sampler for `ctx.method`, called with `cmd` and `ctx` -/
  | start (ctx : Ctx) (cmd : Cmd)
  /-- `while True: yield s` -/
  | rep (s : Str)
  /-- loop of `base.py:78-79` -/
  | seqNF (sep : Str) (gens : List Gen)
  /-- loop of `random.py:86-110` -/
  | randVar (ctx : Ctx) (opts : List (Cmd × Rat)) (lo hi : Int) (sep : Str)
  /-- loop of `random.py:126-128`, with the values already drawn -/
  | randWild (ctx : Ctx) (items : List Item) (buf : List Str)
  /-- loop of `random.py:135-136` -/
  | zipWrap (wg ig : Gen)
  /-- loop of `cycle.py:94-95`: the queue of combination samplers, next one first -/
  | cycVar (sep : Str) (q : List Arr)
  /-- loop of `cycle.py:117`: the queue of value generators, next one first -/
  | cycWild (q : List Gen)
  /-- loop of `combinatorial.py:96-97` -/
  | combSeq (sep : Str) (coll : List (Cmd × Gen × Option Str)) (fr : SFrame)
  /-- loops of `combinatorial.py:125-129`: combinations still to do -/
  | combVar (ctx : Ctx) (sep : Str) (seen : List (List Str)) (pend : List (Nat × List Cmd))
  /-- loop of `combinatorial.py:130-138` inside one combination -/
  | combVarIn (ctx : Ctx) (sep : Str) (seen : List (List Str)) (pend : List (Nat × List Cmd))
      (bound : Nat) (fr : PFrame)
  /-- loop of `combinatorial.py:154-156`: values still to do and the generator of the current one -/
  | combWild (ctx : Ctx) (vals : List Str) (cur : Gen)
  /-- loop of `combinatorial.py:166` -/
  | combWrap (ctx : Ctx) (inner : Cmd) (wg : Gen)
  /-- loop of `combinatorial.py:168-169` for one wrapper text -/
  | combWrapIn (ctx : Ctx) (inner : Cmd) (wg : Gen) (wrapper : Str) (ig : Gen)
  /-- `(res.whitespace_squashed() for res in gen)`, `sampling_context.py:128` -/
  | squash (g : Gen)
/-- State of `_get_combination_samples` (`cycle.py:34-51`) with `get_arrs` (`cycle.py:26-31`). -/
inductive Arr where
  | done
  | start (ctx : Ctx) (combo : List Cmd)
  | nil
  | node (g : Gen) (rest : Arr)
/-- State of the inner `get_sequence` (`combinatorial.py:78-94`). -/
inductive SFrame where
  | done
  | start (ctx : Ctx) (cmds : List Cmd)
  | nf (c : Cmd) (rest : SFrame)
  | fin (ctx : Ctx) (rest : List Cmd) (g : Gen)
  | finIn (ctx : Ctx) (rest : List Cmd) (g : Gen) (v : Str) (cur : SFrame)
/-- State of `_combo_to_prompt` (`combinatorial.py:29-49`). -/
inductive PFrame where
  | done
  | start (ctx : Ctx) (combo : List Cmd)
  | nf (g : Gen) (rest : PFrame)
  | fin (ctx : Ctx) (rest : List Cmd) (g : Gen)
  | finIn (ctx : Ctx) (rest : List Cmd) (g : Gen) (v : Str) (cur : PFrame)
end

/-- `CommandCollection` (`samplers/command_collection.py:16-19`): command, its generator, its
current value. -/
abbrev Coll := List (Cmd × Gen × Option Str)

variable {W : Type}

/-! ## Creating generators -/

/-- Models `samplers/base.py:94-102`: which command a variable access stands for. -/
def resolveVar (unknown : Option Cmd) (vars : List (Str × Cmd)) (name : Str) (default : Option Cmd) :
    Except Err Cmd :=
  match (match vars.lookup name with | some c => some c | none => default) with
  | some c => if c.truthy then .ok c else
      (match unknown with | none => .error (.key name) | some u => .ok u)
  | none => match unknown with | none => .error (.key name) | some u => .ok u

/-- Models `sampling_context.py:98-100` `generator_from_command` with `samplers/base.py:26-49`
(dispatch) and `base.py:89-105` (`_get_variable`, which is not a generator function and therefore
runs when the generator is created).  The fuel bounds the chain of variable references; `mkGen`
supplies enough (theorem `mkGenF_enough`). -/
def mkGenF (unknown : Option Cmd) : Nat → Ctx → Cmd → Option (Except Err Gen)
  | n, ctx, c =>
    let ctx' := ctx.withMethod (effMethod ctx.method c.method)
    match c with
    | .assign .. => some (.error .notImplemented)
    | .wrap .. =>
      if ctx'.method = .cyc then some (.error .notImplemented) else some (.ok (.start ctx' c))
    | .access name default =>
      match resolveVar unknown ctx'.vars name default with
      | .error e => some (.error e)
      | .ok c' =>
        if ctx'.being.contains name then some (.error (.recursion name))
        else match n with
          | 0 => none
          | n + 1 => mkGenF unknown n { ctx' with being := name :: ctx'.being } c'
    | c => some (.ok (.start ctx' c))

/-- The variable names on the access/default chain of a command. -/
def Cmd.chainNames : Cmd → List Str
  | .access name none => [name]
  | .access name (some d) => name :: d.chainNames
  | _ => []

/-- Enough fuel for `mkGenF`: the number of variable references that can be met. -/
def chainFuel (unknown : Option Cmd) (ctx : Ctx) (c : Cmd) : Nat :=
  (c.chainNames ++ (ctx.vars.flatMap fun p => p.2.chainNames) ++
    (match unknown with | none => [] | some u => u.chainNames)).length + 1

/-- `context.generator_from_command(command)`, see `mkGenF`. -/
def mkGen (unknown : Option Cmd) (ctx : Ctx) (c : Cmd) : Except Err Gen :=
  match mkGenF unknown (chainFuel unknown ctx c) ctx c with
  | some r => r
  | none => .error .runtime

/-- `[context.generator_from_command(c) for c in commands]`. -/
def mkGens (unknown : Option Cmd) (ctx : Ctx) : List Cmd → Except Err (List Gen)
  | [] => .ok []
  | c :: cs =>
    match mkGen unknown ctx c with
    | .error e => .error e
    | .ok g =>
      match mkGens unknown ctx cs with
      | .error e => .error e
      | .ok gs => .ok (g :: gs)

/-- A prompt given as text or as a command. -/
abbrev Prompt := Str ⊕ Cmd

/-- Models `sampling_context.py:102-131` `sample_prompts` without the limit: the generator of all
prompts.  A false prompt gives no prompts. -/
def sampleGen (E : Env W) (ctx : Ctx) (p : Prompt) : Except Err Gen :=
  match p with
  | .inl s =>
    if s.isEmpty then .ok .done
    else match E.parse s with
      | .error e => .error e
      | .ok c => match mkGen E.unknown ctx c with
        | .error e => .error e
        | .ok g => .ok (if E.ignoreWs then .squash g else g)
  | .inr c =>
    if !c.truthy then .ok .done
    else match mkGen E.unknown ctx c with
      | .error e => .error e
      | .ok g => .ok (if E.ignoreWs then .squash g else g)

/-- `[new_context.sample_prompts(val) for val in values]`, `cycle.py:112-116`. -/
def sampleGens (E : Env W) (ctx : Ctx) : List Str → Except Err (List Gen)
  | [] => .ok []
  | s :: ss =>
    match sampleGen E ctx (.inl s) with
    | .error e => .error e
    | .ok g =>
      match sampleGens E ctx ss with
      | .error e => .error e
      | .ok gs => .ok (g :: gs)

/-! ## One step of a generator, given `next` for everything inside it -/

/-- `next` for the four kinds of states, as available to the body of a generator. `none` is
StopIteration. -/
structure Recs (W : Type) where
  G : Gen → M W (Option (Str × Gen))
  A : Arr → M W (Option (List Str × Arr))
  S : Coll → SFrame → M W (Coll × Option (List Str × SFrame))
  P : PFrame → M W (Option (List Str × PFrame))

/-- `next(gen)` where StopIteration would escape inside a generator body: RuntimeError (PEP 479). -/
def Recs.next! (r : Recs W) (g : Gen) : M W (Str × Gen) := do
  match ← r.G g with
  | none => M.raise .runtime
  | some x => return x

/-- Models `utils.py:40-41` `rotate_all`. -/
def Recs.rotate (r : Recs W) : List Gen → M W (List Str × List Gen)
  | [] => pure ([], [])
  | g :: gs => do
    let (v, g') ← r.next! g
    let (vs, gs') ← r.rotate gs
    return (v :: vs, g' :: gs')

/-- `next(iter(context.sample_prompts(prompt, 1))).text`, e.g. `samplers/utils.py:27`. -/
def Recs.sampleFirst (r : Recs W) (E : Env W) (ctx : Ctx) (p : Prompt) : M W Str := do
  let g ← M.lift (sampleGen E ctx p)
  let (v, _) ← r.next! g
  return v

/-- Models `sampling_context.py:161-177` `process_variable_assignment`. -/
def Recs.assign (r : Recs W) (E : Env W) (ctx : Ctx) (name : Str) (value : Cmd)
    (immediate overwrite : Bool) : M W Cmd :=
  match (if overwrite then none else ctx.vars.lookup name) with
  | some v => pure v
  | none =>
    if immediate then
      match value with
      | .lit _ _ => pure value
      | _ => do
        let g ← M.lift (mkGen E.unknown ctx value)
        let (v, _) ← r.next! g
        return .lit v none
    else pure value

/-- Models `sampling_context.py:139-159` `process_variable_assignments`: the remaining commands and
the new variables, last assignment first. Every value is evaluated in the original context. -/
def Recs.assigns (r : Recs W) (E : Env W) (ctx : Ctx) :
    List Cmd → M W (List Cmd × List (Str × Cmd))
  | [] => pure ([], [])
  | .assign name value imm ow :: cs => do
    let v ← r.assign E ctx name value imm ow
    let (toks, new) ← r.assigns E ctx cs
    return (toks, new ++ [(name, v)])
  | c :: cs => do
    let (toks, new) ← r.assigns E ctx cs
    return (c :: toks, new)

/-- First values of the collection's generators, `samplers/command_collection.py:19`. -/
def Recs.firstValues (r : Recs W) : List (Cmd × Gen) → M W Coll
  | [] => pure []
  | (c, g) :: cs => do
    let (v, g') ← r.next! g
    let rest ← r.firstValues cs
    return (c, g', some v) :: rest

/-- Models `samplers/command_collection.py:16-19` `CommandCollection.__init__`. -/
def Recs.mkColl (r : Recs W) (E : Env W) (ctx : Ctx) (cmds : List Cmd) : M W Coll := do
  let gens ← M.lift (mkGens E.unknown ctx cmds)
  r.firstValues (cmds.zip gens)

/-- Models `samplers/command_collection.py:21-37` `CommandCollection.get_value` (first equal
command); ValueError if the command is not in the collection. -/
def Recs.getValue (r : Recs W) (c : Cmd) : Coll → M W (Option Str × Coll)
  | [] => M.raise .value
  | (c', g, v) :: cs =>
    if c' = c then do
      match ← r.G g with
      | some (v', g') => return (v, (c', g', some v') :: cs)
      | none => return (v, (c', .done, none) :: cs)
    else do
      let (v', cs') ← r.getValue c cs
      return (v', (c', g, v) :: cs')

/-- Models `samplers/utils.py:19-44` `wildcard_to_variant`. -/
def Recs.wildcardToVariant (r : Recs W) (E : Env W) (ctx : Ctx) (path : Prompt) (m : Option Method)
    (lo hi : Int) (sep : Str) : M W Cmd := do
  let wc ← r.sampleFirst E ctx path
  let values ← E.getValues wc
  let lo' := min lo values.length
  let hi' := min hi values.length
  let opts ← M.lift ((iterateWeighted values).mapM (fun v => (E.parse v).map (fun c => (c, (1 : Rat)))))
  return Cmd.mkVariant opts lo' hi' sep m

/-- Models `samplers/utils.py:47-62` `get_wildcard_not_found_fallback`, up to its loop. -/
def Recs.fallback (r : Recs W) (E : Env W) (ctx : Ctx) (path : Prompt) : M W Gen := do
  let wc ← (match path with
    | .inr _ => r.sampleFirst E ctx path
    | .inl s => pure s)
  return .rep (E.toWildcard wc)

/-- The sentinel tokens of `combinatorial.py:67-75`. -/
def sentinel : Cmd := .lit [] (some .comb)

/-- First part of the body of a generator: what a `start` state turns into before the first
`yield`.  Models `samplers/base.py:70-87`, `random.py:63-136`, `cycle.py:55-117`,
`combinatorial.py:53-169`, depending on `ctx.method`. -/
def startG (E : Env W) (r : Recs W) (ctx : Ctx) (cmd : Cmd) : M W Gen :=
  match cmd with
  | .lit s _ => pure (.rep s)
  | .seq toks sep _ => do
    let (toks', new) ← r.assigns E ctx toks
    let ctx' := ctx.withVars new
    match ctx.method with
    | .comb => do
      let coll ← r.mkColl E ctx' (toks'.filter (fun c => c.method ≠ some .comb))
      return .combSeq sep coll (.start ctx' (sentinel :: toks' ++ [sentinel]))
    | _ => do
      let gens ← M.lift (mkGens E.unknown ctx' toks')
      return .seqNF sep gens
  | .variant opts lo hi sep _ =>
    match opts with
    | [] => pure .done
    | [(.wild path m _, _)] => do
      let v ← r.wildcardToVariant E ctx path m lo hi sep
      return .start ctx v
    | [(c, _)] =>
      match ctx.method with
      | .random => M.lift (mkGen E.unknown ctx c)
      | .cyc =>
        let b := adjustBounds 1 lo hi
        pure (.cycVar sep ((boundCombos [c] b.1 b.2).map (fun p => Arr.start ctx p.2)))
      | .comb =>
        let b := adjustBounds 1 lo hi
        pure (.combVar ctx sep [] (boundCombos [c] b.1 b.2))
    | opts =>
      let b := adjustBounds opts.length lo hi
      match ctx.method with
      | .random => pure (.randVar ctx opts lo hi sep)
      | .cyc => pure (.cycVar sep ((boundCombos (opts.map (·.1)) b.1 b.2).map
          (fun p => Arr.start ctx p.2)))
      | .comb => pure (.combVar ctx sep [] (boundCombos (opts.map (·.1)) b.1 b.2))
  | .wild path _ vars => do
    let wc ← r.sampleFirst E ctx path
    let values ← E.getValues wc
    let ctx' := ctx.withVars vars
    if values.isEmpty then r.fallback E ctx' path
    else match ctx.method with
      | .random => return .randWild ctx' values []
      | .cyc => do
        let gens ← M.lift (sampleGens E ctx' (iterateWeighted values))
        return .cycWild gens
      | .comb => return .combWild ctx' (iterateWeighted values) .done
  | .assign .. => M.raise .notImplemented
  | .access .. => M.raise .notImplemented
  | .wrap wrapper inner _ =>
    match ctx.method with
    | .random => do
      let wg ← M.lift (mkGen E.unknown ctx wrapper)
      let ig ← M.lift (mkGen E.unknown ctx inner)
      return .zipWrap wg ig
    | .comb => do
      let wg ← M.lift (sampleGen E ctx (.inr wrapper))
      return .combWrap ctx inner wg
    | .cyc => M.raise .notImplemented

/-- One `next` of a text generator; recursive calls use `r`. -/
def stepG (E : Env W) (r : Recs W) : Gen → M W (Option (Str × Gen))
  | .done => pure none
  | .start ctx (.lit s _) =>
    -- `base.py:86-87` / `combinatorial.py:163`
    match ctx.method with
    | .comb => pure (some (s, .done))
    | _ => pure (some (s, .rep s))
  | .start ctx cmd => do
    let g ← startG E r ctx cmd
    r.G g
  | .rep s => pure (some (s, .rep s))
  | .seqNF sep gens => do
    let (vs, gens') ← r.rotate gens
    return some (joined sep vs, .seqNF sep gens')
  | .randVar ctx opts lo hi sep => do
    -- `random.py:86-110`
    let b := adjustBounds opts.length lo hi
    let k ← E.rng.randint b.1 b.2
    let sel ← chooseWithoutReplacement E.rng (opts.map (·.1)) (opts.map (·.2)) (min b.2 k)
    let gens ← M.lift (mkGens E.unknown ctx sel)
    match gens with
    | [] => return some ([], .randVar ctx opts b.1 b.2 sep)
    | gens => do
      let (vs, _) ← r.rotate gens
      return some (joined sep vs, .randVar ctx opts b.1 b.2 sep)
  | .randWild ctx items buf => do
    -- `random.py:126-128`
    let (value, buf') ← weightedNext E.rng items buf
    let g ← M.lift (sampleGen E ctx (.inl value))
    match ← r.G g with
    | some (v, _) => return some (v, .randWild ctx items buf')
    | none => r.G (.randWild ctx items buf')
  | .zipWrap wg ig => do
    -- `random.py:135-136`
    match ← r.G wg with
    | none => return none
    | some (w, wg') =>
      match ← r.G ig with
      | none => return none
      | some (i, ig') => return some (wrapWith w i, .zipWrap wg' ig')
  | .cycVar sep q =>
    -- `cycle.py:94-95` with `utils.py:52-55`; with no combination at all the loop never yields
    match q with
    | [] => M.diverge
    | a :: q => do
      match ← r.A a with
      | none => M.raise .runtime
      | some (vs, a') => return some (joined sep vs, .cycVar sep (q ++ [a']))
  | .cycWild q =>
    -- `cycle.py:117` with `utils.py:52-55`
    match q with
    | [] => pure none
    | g :: q => do
      let (v, g') ← r.next! g
      return some (v, .cycWild (q ++ [g']))
  | .combSeq sep coll fr => do
    -- `combinatorial.py:96-97`
    match ← r.S coll fr with
    | (_, none) => return none
    | (coll', some (vs, fr')) => return some (joined sep vs, .combSeq sep coll' fr')
  | .combVar ctx sep seen pend =>
    -- `combinatorial.py:125-130`
    match pend with
    | [] => pure none
    | (b, combo) :: pend => r.G (.combVarIn ctx sep seen pend b (.start ctx combo))
  | .combVarIn ctx sep seen pend b fr => do
    -- `combinatorial.py:130-138`
    match ← r.P fr with
    | none => r.G (.combVar ctx sep seen pend)
    | some (vs, fr') =>
      let d := dedupe (fun s : Str => s) vs
      if d.length = b ∧ ¬ seen.contains d then
        return some (joined sep d, .combVarIn ctx sep (d :: seen) pend b fr')
      else r.G (.combVarIn ctx sep seen pend b fr')
  | .combWild ctx vals cur => do
    -- `combinatorial.py:154-156`
    match ← r.G cur with
    | some (v, cur') => return some (v, .combWild ctx vals cur')
    | none =>
      match vals with
      | [] => return none
      | v :: vals => do
        let g ← M.lift (sampleGen E ctx (.inl v))
        r.G (.combWild ctx vals g)
  | .combWrap ctx inner wg => do
    -- `combinatorial.py:166-168`
    match ← r.G wg with
    | none => return none
    | some (w, wg') => do
      let ig ← M.lift (sampleGen E ctx (.inr inner))
      r.G (.combWrapIn ctx inner wg' w ig)
  | .combWrapIn ctx inner wg w ig => do
    -- `combinatorial.py:168-169`
    match ← r.G ig with
    | none => r.G (.combWrap ctx inner wg)
    | some (i, ig') => return some (wrapWith w i, .combWrapIn ctx inner wg w ig')
  | .squash g => do
    match ← r.G g with
    | none => return none
    | some (v, g') => return some (squashWhitespace v, .squash g')

/-- One `next` of `_get_combination_samples`/`get_arrs` (`cycle.py:26-51`): the rest is advanced
before the first generator, and a finished first generator yields `[]` once. -/
def stepA (E : Env W) (r : Recs W) : Arr → M W (Option (List Str × Arr))
  | .done => pure none
  | .nil => pure (some ([], .nil))
  | .start ctx combo =>
    match combo with
    | [] => pure (some ([], .nil))
    | c :: cs => do
      let g ← M.lift (mkGen E.unknown ctx c)
      r.A (.node g (.start ctx cs))
  | .node g rest => do
    match ← r.A rest with
    | none => return none
    | some (vs, rest') =>
      match ← r.G g with
      | none => return some ([], .done)
      | some (v, g') => return some (v :: vs, .node g' rest')

/-- One `next` of `get_sequence` (`combinatorial.py:78-94`). -/
def stepS (E : Env W) (r : Recs W) (coll : Coll) : SFrame → M W (Coll × Option (List Str × SFrame))
  | .done => pure (coll, none)
  | .start ctx cmds =>
    match cmds with
    | [] => pure (coll, some ([], .done))
    | c :: cs =>
      if (ctx.effective c).nonfinite then r.S coll (.nf c (.start ctx cs))
      else do
        let g ← M.lift (mkGen E.unknown ctx c)
        r.S coll (.fin ctx cs g)
  | .nf c rest => do
    match ← r.S coll rest with
    | (coll', none) => return (coll', none)
    | (coll', some (vs, rest')) => do
      let (v, coll'') ← r.getValue c coll'
      match v with
      | some v => return (coll'', some (v :: vs, .nf c rest'))
      | none => return (coll'', some (vs, .nf c rest'))
  | .fin ctx cs g => do
    match ← r.G g with
    | none => return (coll, none)
    | some (v, g') => r.S coll (.finIn ctx cs g' v (.start ctx cs))
  | .finIn ctx cs g v cur => do
    match ← r.S coll cur with
    | (coll', none) => r.S coll' (.fin ctx cs g)
    | (coll', some (vs, cur')) => return (coll', some (v :: vs, .finIn ctx cs g v cur'))

/-- One `next` of `_combo_to_prompt` (`combinatorial.py:29-49`). -/
def stepP (E : Env W) (r : Recs W) : PFrame → M W (Option (List Str × PFrame))
  | .done => pure none
  | .start ctx combo =>
    match combo with
    | [] => pure (some ([], .done))
    | c :: cs => do
      let g ← M.lift (mkGen E.unknown ctx c)
      if (ctx.effective c).nonfinite then r.P (.nf g (.start ctx cs))
      else r.P (.fin ctx cs g)
  | .nf g rest => do
    match ← r.P rest with
    | none => return none
    | some (vs, rest') => do
      let (v, g') ← r.next! g
      return some (v :: vs, .nf g' rest')
  | .fin ctx cs g => do
    match ← r.G g with
    | none => return none
    | some (v, g') => r.P (.finIn ctx cs g' v (.start ctx cs))
  | .finIn ctx cs g v cur => do
    match ← r.P cur with
    | none => r.P (.fin ctx cs g)
    | some (vs, cur') => return some (v :: vs, .finIn ctx cs g v cur')

/-! ## Tying the knot -/

/-- `next` with fuel `n`: at most `n` nested or consecutive internal steps. -/
def recs (E : Env W) : Nat → Recs W
  | 0 => ⟨fun _ => M.diverge, fun _ => M.diverge, fun _ _ => M.diverge, fun _ => M.diverge⟩
  | n + 1 => ⟨stepG E (recs E n), stepA E (recs E n), stepS E (recs E n), stepP E (recs E n)⟩

/-- `next(g)` with fuel `n`; `none` is StopIteration. -/
def nextG (E : Env W) (n : Nat) (g : Gen) : M W (Option (Str × Gen)) := (recs E n).G g

/-- How an iteration ended: the limit was reached, the generator stopped, it raised, or it did not
answer within the fuel. -/
inductive Stop (W : Type) where
  | limit (g : Gen) (w : W)
  | stop (w : W)
  | raised (e : Err) (w : W)
  | fuel

/-- `islice(g, k)` iterated to its end (`sampling_context.py:130-132`): the prompts produced and
how it ended. -/
def collect (E : Env W) (n : Nat) : Nat → Gen → W → List Str × Stop W
  | 0, g, w => ([], .limit g w)
  | k + 1, g, w =>
    match nextG E n g w with
    | .ok none w' => ([], .stop w')
    | .ok (some (v, g')) w' => let r := collect E n k g' w'; (v :: r.1, r.2)
    | .err e w' => ([], .raised e w')
    | .fuel => ([], .fuel)

/-- `context.sample_prompts(prompt, k)` iterated to its end. -/
def samplePrompts (E : Env W) (n : Nat) (ctx : Ctx) (p : Prompt) (k : Nat) (w : W) :
    List Str × Stop W :=
  match sampleGen E ctx p with
  | .error e => ([], .raised e w)
  | .ok g => collect E n k g w

end Verif
