import Verif.Model.Engine
/-!
# Prompt generators

Models `generators/*.py` and `jinja_extensions.py`.  Paths are relative to `src/dynamicprompts`.
Keyword arguments that a generator only passes on are not modelled; logging is not modelled.
-/

namespace Verif
variable {W : Type}

/-! ## Running a template -/

/-- `list(islice(g, k))`. -/
def takeList (E : Env W) (n : Nat) : Nat → Gen → M W (List Str)
  | 0, _ => pure []
  | k + 1, g => do
    match ← nextG E n g with
    | none => return []
    | some (v, g') => do
      let vs ← takeList E n k g'
      return v :: vs

/-- `list(g)`: at most `k` prompts are tried, more do not fit into the fuel. -/
def drainList (E : Env W) (n : Nat) : Nat → Gen → M W (List Str)
  | 0, _ => M.diverge
  | k + 1, g => do
    match ← nextG E n g with
    | none => return []
    | some (v, g') => do
      let vs ← drainList E n k g'
      return v :: vs

/-- `[str(p) for p in context.sample_prompts(template, num)]` (`sampling_context.py:102-132`): a false
template gives nothing, `islice` rejects a negative number, `None` means all prompts. -/
def listPrompts (E : Env W) (n : Nat) (ctx : Ctx) (template : Str) (num : Option Int) :
    M W (List Str) :=
  if template.isEmpty then pure []
  else do
    let g ← M.lift (sampleGen E ctx (.inl template))
    match num with
    | none => drainList E n n g
    | some k => if k < 0 then M.raise .value else takeList E n k.toNat g

/-! ## Random, combinatorial and batched generation -/

/-- The argument `seeds` of `RandomPromptGenerator.generate`, `generators/randomprompt.py:51`. -/
inductive Seeds where
  | none
  | int (s : Int)
  | list (l : List Int)
deriving DecidableEq

/-- `if seeds:`, `generators/randomprompt.py:57`. -/
def Seeds.truthy : Seeds → Bool
  | .none => false
  | .int s => s ≠ 0
  | .list l => !l.isEmpty

/-- Models `generators/randomprompt.py:58-62`. -/
def Seeds.expand (num : Int) : Seeds → List Int
  | .none => []
  | .int s => List.replicate num.toNat s
  | .list [s] => List.replicate num.toNat s
  | .list l => l

/-- The loop of `generators/randomprompt.py:69-71`; `reseed` is `rand.seed`. -/
def seedLoop (E : Env W) (n : Nat) (reseed : Int → W → W) : List Int → Gen → M W (List Str)
  | [], _ => pure []
  | s :: ss, g => fun w =>
    (do
      match ← nextG E n g with
      | none => M.raise .stop
      | some (v, g') => do
        let vs ← seedLoop E n reseed ss g'
        return v :: vs : M W (List Str)) (reseed s w)

/-- The context of a new generator (`generators/randomprompt.py:35-44`,
`generators/combinatorial.py:23-28`). -/
def generatorCtx (m : Method) : Ctx := { method := m, vars := [], being := [] }

/-- Models `generators/randomprompt.py:46-76` `RandomPromptGenerator.generate`; a template `None` is
the empty text. -/
def randomGenerate (E : Env W) (n : Nat) (reseed : Int → W → W) (template : Str) (num : Int)
    (seeds : Seeds) : M W (List Str) :=
  if seeds.truthy then
    let l := seeds.expand num
    if (l.length : Int) ≠ num then M.raise .value
    else do
      let g ← M.lift (sampleGen E (generatorCtx .random) (.inl template))
      seedLoop E n reseed l g
  else listPrompts E n (generatorCtx .random) template (some num)

/-- Models `generators/combinatorial.py:30-38` `CombinatorialPromptGenerator.generate`. -/
def combGenerate (E : Env W) (n : Nat) (template : Str) (max : Option Int) : M W (List Str) :=
  listPrompts E n (generatorCtx .comb) template max

/-- `constants.py:7`. -/
def maxImages : Int := 1000

/-- A prompt generator: `generate(template, count)`, `generators/promptgenerator.py:7-9`. -/
abbrev PGen (W : Type) := Str → Int → M W (List Str)

/-- Models `generators/dummygenerator.py:6-13` `DummyGenerator.generate`. -/
def dummyGenerate : PGen W := fun template num => pure (List.replicate num.toNat template)

/-- The loop of `generators/batched_combinatorial.py:24-25`. -/
def batchLoop (inner : M W (List Str)) : Nat → M W (List Str)
  | 0 => pure []
  | k + 1 => do
    let a ← inner
    let b ← batchLoop inner k
    return a ++ b

/-- Models `generators/batched_combinatorial.py:16-26`
`BatchedCombinatorialPromptGenerator.generate`. -/
def batchedGenerate (inner : PGen W) (batches : Int) : PGen W := fun template max =>
  batchLoop (inner template max) batches.toNat

/-! ## Jinja -/

/-- Rendering a template once: the text, and the values of the prompt blocks met on the way
(`jinja_extensions.py:91-95` `_prompt` appends them). -/
abbrev Render (W : Type) := M W (Str × List Str)

/-- The comprehension `generators/jinjagenerator.py:93`: the rendered texts and all prompt blocks. -/
def renderLoop (render : Render W) : Nat → M W (List Str × List Str)
  | 0 => pure ([], [])
  | k + 1 => do
    let (t, bs) ← render
    let (ts, bss) ← renderLoop render k
    return (t :: ts, bs ++ bss)

/-- Models `generators/jinjagenerator.py:90-103` `JinjaGenerator.generate`; `build` is the outcome of
compiling the template, `none` being a syntax error (`:83-87`). -/
def jinjaGenerate (build : Option (Render W)) (limit ignoreWs : Bool) (num : Int) : M W (List Str) :=
  match build with
  | none => M.raise .generator
  | some render => do
    let (texts, blocks) ← renderLoop render num.toNat
    let prompts := if blocks.isEmpty then texts else blocks
    let prompts := if limit then prompts.take num.toNat else prompts
    return if ignoreWs then prompts.map squashWhitespace else prompts

/-- Every way to take one element out of a list, in order: the element and the rest. -/
def picks {α : Type} : List α → List (α × List α)
  | [] => []
  | x :: xs => (x, xs) :: (picks xs).map fun p => (p.1, x :: p.2)

/-- `itertools.permutations(items, k)`: ordered selections by position, in lexicographic order. -/
def permsOf {α : Type} : Nat → List α → List (List α)
  | 0, _ => [[]]
  | k + 1, l => (picks l).flatMap fun p => (permsOf k p.2).map (p.1 :: ·)

/-- Models `jinja_extensions.py:25-37` `permutation`; `itertools.permutations` rejects a negative
size. -/
def permutation {α : Type} (items : List α) (low : Int) (high : Option Int) : Except Err (List (List α)) :=
  let high := high.getD low
  if low ≤ high ∧ low < 0 then .error .value
  else .ok ((boundRange low high).flatMap fun k => permsOf k items)

/-- Models `jinja_extensions.py:16-17` `choice`, with `random.choice`. -/
def jinjaChoice {α : Type} (rng : Rng W) (items : List α) : M W α := rng.choice items

/-- Models `jinja_extensions.py:20-22` `weighted_choice`; `zip(*items)` of no items cannot be
unpacked (ValueError). -/
def jinjaWeightedChoice {α : Type} (rng : Rng W) (items : List (α × Rat)) : M W α :=
  if items.isEmpty then M.raise .value
  else do
    let l ← rng.choicesCum (items.map (·.1)) (accumulate rng.arith (items.map (·.2))) 1
    match l with
    | [] => M.raise .index
    | a :: _ => return a

/-- Models `jinja_extensions.py:40-51` `wildcard`. -/
def jinjaWildcard (E : Env W) (n : Nat) (name : Str) : M W (List Str) :=
  combGenerate E n (E.toWildcard name) (some maxImages)

/-- Models `jinja_extensions.py:54-59` `random_sample`. -/
def jinjaRandomSample (E : Env W) (n : Nat) (reseed : Int → W → W) (prompt : Str) : M W Str := do
  let ps ← randomGenerate E n reseed prompt 1 .none
  match ps with
  | [] => M.raise .stop
  | p :: _ => return p

/-- Models `jinja_extensions.py:62-66` `combinatorial_sample`. -/
def jinjaAllCombinations (E : Env W) (n : Nat) (prompt : Str) : M W (List Str) :=
  combGenerate E n prompt (some maxImages)

/-! ## Feeling lucky -/

/-- CPython `random.choices(population, k=k)` without weights: `population[floor(random() * n)]`. -/
def Rng.choices {α : Type} (r : Rng W) (pop : List α) : Nat → M W (List α)
  | 0 => pure []
  | k + 1 => fun w =>
    let x := r.unit w
    match pop[(r.arith.times x.1.val pop.length).floor.toNat]? with
    | none => .err .index x.2
    | some v => (do let vs ← r.choices pop k; return v :: vs) x.2

/-- `[p["prompt"] for p in selected_prompts]`, `generators/feelinglucky.py:52`: `none` is an image
without that key. -/
def promptsOf : List (Option Str) → Except Err (List Str)
  | [] => .ok []
  | none :: _ => .error (.key c!"prompt")
  | some p :: ps =>
    match promptsOf ps with
    | .error e => .error e
    | .ok l => .ok (p :: l)

/-- The `try` block of `generators/feelinglucky.py:48-54`. -/
def luckyTry (rng : Rng W) (query : Str → M W (List (Option Str))) (num : Int) (q : Str) :
    M W (List Str) := fun w =>
  match (do
      let images ← query q
      let sel ← rng.choices images num.toNat
      M.lift (promptsOf sel) : M W (List Str)) w with
  | .ok l w' => .ok l w'
  | .err _ w' => .err .generator w'
  | .fuel => .fuel

/-- Models `generators/feelinglucky.py:40-54` `FeelingLuckyGenerator.generate`.  `query` is
`query_lexica` with `["images"]`: the `prompt` of every image it answers, or an exception. `digits` is
`str` of a number. -/
def luckyGenerate (rng : Rng W) (digits : Int → Str) (query : Str → M W (List (Option Str)))
    (inner : PGen W) : PGen W := fun search num => do
  let qs ← inner search 1
  match qs with
  | [] => M.raise .index
  | q :: _ => do
    let q ← (if strip q = [] then do
        let k ← rng.randint 0 10000000
        return digits k
      else return q)
    luckyTry rng query num q

/-! ## Attention -/

/-- Search for the first occurrence of a pattern: text before and after it. Used for the calls of
`str.replace` in `generators/attentiongenerator.py:95` and `generators/magicprompt.py:56`. -/
def findSub (pat : Str) : Str → Option (Str × Str)
  | [] => if pat.isEmpty then some ([], []) else none
  | c :: cs =>
    if pat.isPrefixOf (c :: cs) then some ([], (c :: cs).drop pat.length)
    else match findSub pat cs with
      | none => none
      | some (a, b) => some (c :: a, b)

/-- Python `s.replace(pat, new)` for a non-empty pattern; the fuel is at least the length of `s`. -/
def replaceN (pat new : Str) : Nat → Str → Str
  | 0, s => s
  | n + 1, s =>
    match findSub pat s with
    | none => s
    | some (a, b) => a ++ new ++ replaceN pat new n b

/-- Python `s.replace(pat, new)`; an empty pattern matches before every character and at the end. -/
def replaceAll (s pat new : Str) : Str :=
  if pat.isEmpty then new ++ s.flatMap fun c => c :: new
  else replaceN pat new s.length s

/-- `round(q, 2)` on rationals instead of floats: to the nearest hundredth, ties to the even one. -/
def round2 (q : Rat) : Rat :=
  let x := q * 100
  let f := x.floor
  let d := x - f
  let k := if d < 1 / 2 then f else if 1 / 2 < d then f + 1 else if f % 2 = 0 then f else f + 1
  (k : Rat) / 100

/-- CPython `random.uniform(a, b)`: `a + (b - a) * random()`. -/
def Rng.uniform (r : Rng W) (a b : Rat) : M W Rat := fun w =>
  let x := r.unit w
  .ok (a + (b - a) * x.1.val) x.2

/-- Models `generators/attentiongenerator.py:88-97` `_add_emphasis`; `chunks` is `find_noun_chunks`,
`fmt` is `str` of a float. `lo` and `hi` are sorted by the constructor (`:84-86`). -/
def addEmphasis (rng : Rng W) (chunks : Str → List Str) (fmt : Rat → Str) (lo hi : Rat) (prompt : Str) :
    M W Str :=
  match chunks prompt with
  | [] => pure prompt
  | ks => do
    let keyword ← rng.choice ks
    let u ← rng.uniform (min lo hi) (max lo hi)
    let attention := round2 u
    return replaceAll prompt keyword (c!"(" ++ keyword ++ c!":" ++ fmt attention ++ c!")")

/-- `[f(x) for x in l]`, as in `generators/attentiongenerator.py:101`. -/
def mapList {α β : Type} (f : α → M W β) : List α → M W (List β)
  | [] => pure []
  | a :: as => do
    let b ← f a
    let bs ← mapList f as
    return b :: bs

/-- Models `generators/attentiongenerator.py:99-103` `AttentionGenerator.generate`. -/
def attentionGenerate (rng : Rng W) (chunks : Str → List Str) (fmt : Rat → Str) (lo hi : Rat)
    (inner : PGen W) : PGen W := fun template num => do
  let prompts ← inner template num
  mapList (addEmphasis rng chunks fmt lo hi) prompts

/-- `string.punctuation`. -/
def isPunct (c : Char) : Bool :=
  let n := c.toNat
  (0x21 ≤ n && n ≤ 0x2f) || (0x3a ≤ n && n ≤ 0x40) || (0x5b ≤ n && n ≤ 0x60) || (0x7b ≤ n && n ≤ 0x7e)

/-- The class `[,;:.?!()]` of `generators/attentiongenerator.py:31`. -/
def isChunkSep (c : Char) : Bool :=
  c == ',' || c == ';' || c == ':' || c == '.' || c == '?' || c == '!' || c == '(' || c == ')'

/-- Models `generators/attentiongenerator.py:17-22` `is_valid_chunk`; `isDigit` is `str.isdigit` of one
character. -/
def validChunk (isDigit : Char → Bool) (chunk : Str) : Bool :=
  if !chunk.isEmpty && chunk.all isDigit then false
  else if chunk.all isPunct then false
  else true

/-- Length of a match of `\s*[,;:.?!()]+\s*` at the beginning of a text, `generators/attentiongenerator.py:31`. -/
def mChunkSep (s : Str) : Option Nat :=
  let k := (s.takeWhile isSpace).length
  let j := ((s.drop k).takeWhile isChunkSep).length
  let i := (((s.drop k).drop j).takeWhile isSpace).length
  if j = 0 then none else some (k + j + i)

/-- `re.split` for a pattern that never matches the empty text: `m` gives the length of a match at the
beginning of a text. The fuel is at least the length of the text. -/
def reSplitN (m : Str → Option Nat) : Nat → Str → List Str
  | 0, s => [s]
  | _ + 1, [] => [[]]
  | n + 1, c :: cs =>
    match m (c :: cs) with
    | some (k + 1) => [] :: reSplitN m n ((c :: cs).drop (k + 1))
    | _ => consHead c (reSplitN m n cs)

/-- Models `generators/attentiongenerator.py:25-33` `cheap_chunker`. -/
def cheapChunker (isDigit : Char → Bool) (prompt : Str) : List Str :=
  let s := strip prompt
  (reSplitN mChunkSep s.length s).filter (validChunk isDigit)

/-! ## Magic prompt -/

/-- Models `generators/magicprompt.py:209-229` `_generate_magic_prompts`: `model` is the pipeline and
the extraction of the generated texts, `clean` is `clean_up_magic_prompt`. -/
def magicBatch (model : List Str → M W (List Str)) (clean : Str → Str → Str) (origs : List Str) :
    M W (List Str) := do
  let outs ← model origs
  return List.zipWith clean origs outs

/-- Positions of the blocked prompts, `generators/magicprompt.py:187-191`. -/
def blockedAt (blocked : Str → Bool) (from_ : Nat) : List Str → List Nat
  | [] => []
  | p :: ps => if blocked p then from_ :: blockedAt blocked (from_ + 1) ps
    else blockedAt blocked (from_ + 1) ps

/-- `[original_prompts[index] for index in indexes]`, `generators/magicprompt.py:196`. -/
def lookupAll (l : List Str) : List Nat → Except Err (List Str)
  | [] => .ok []
  | i :: is =>
    match l[i]? with
    | none => .error .index
    | some x =>
      match lookupAll l is with
      | .error e => .error e
      | .ok xs => .ok (x :: xs)

/-- The loop of `generators/magicprompt.py:200-201`. -/
def putAll (l : List Str) : List (Nat × Str) → List Str
  | [] => l
  | (i, p) :: ps => putAll (l.set i p) ps

/-- The loop of `generators/magicprompt.py:186-201`. -/
def regenerate (blocked : Str → Bool) (batch : List Str → M W (List Str)) (origs : List Str) :
    Nat → List Str → M W (List Str)
  | 0, magic => pure magic
  | k + 1, magic =>
    match blockedAt blocked 0 magic with
    | [] => pure magic
    | idx => do
      let ps ← M.lift (lookupAll origs idx)
      let new ← batch ps
      regenerate blocked batch origs k (putAll magic (idx.zip new))

/-- Models `generators/magicprompt.py:166-207` `generate` and `_regenerate_blocked_prompts`; without a
blocklist nothing is regenerated. `prompts` are those of the inner generator. -/
def magicGenerate (blocklist : Option (Str → Bool)) (batch : List Str → M W (List Str))
    (maxAttempts : Int) (prompts : List Str) : M W (List Str) := do
  let magic ← batch prompts
  match blocklist with
  | none => return magic
  | some blocked => regenerate blocked batch prompts maxAttempts.toNat magic

/-- The class attributes `_model_name` and `generator` of `MagicPromptGenerator`
(`generators/magicprompt.py:78-81`), and for every
instance the pipeline it uses (`self._generator`); a pipeline is identified by the name it was loaded
for and a serial number. `loads` counts the pipelines loaded. -/
structure MagicState where
  name : Option Str
  pipeline : Option (Str × Nat)
  instances : List (Option (Str × Nat))
  loads : Nat
deriving DecidableEq

/-- Nothing loaded, no instance (`generators/magicprompt.py:78-83`). -/
def MagicState.init : MagicState := ⟨none, none, [], 0⟩

/-- Models `generators/magicprompt.py:157-164` `set_model` with `_load_pipeline` (`:85-105`) for a
new or existing instance: the new class state and the pipeline for the instance, `none` if loading
raised. -/
def MagicState.setModel (s : MagicState) (model : Str) (loadOk : Bool) :
    MagicState × Option (Option (Str × Nat)) :=
  if s.name ≠ some model then
    let s := { s with name := some model, pipeline := none }
    if loadOk then
      let p := (model, s.loads)
      ({ s with pipeline := some p, loads := s.loads + 1 }, some (some p))
    else (s, none)
  else (s, some s.pipeline)

/-- What can happen (`generators/magicprompt.py:107`, `:157`): a new instance is made for a model, or the model of an instance is changed;
the flag says whether loading would succeed. -/
inductive MagicOp where
  | new (model : Str) (loadOk : Bool)
  | set (i : Nat) (model : Str) (loadOk : Bool)

/-- One operation, and whether it raised; an exception leaves the class changed and the instance as it
was, and a constructor that raises makes no instance (`generators/magicprompt.py:107-150`,
`:157-164`). An instance that does not exist cannot be changed. -/
def MagicState.step (s : MagicState) : MagicOp → MagicState × Bool
  | .new model ok =>
    match s.setModel model ok with
    | (s', some p) => ({ s' with instances := s'.instances ++ [p] }, false)
    | (s', none) => (s', true)
  | .set i model ok =>
    if i < s.instances.length then
      match s.setModel model ok with
      | (s', some p) => ({ s' with instances := s'.instances.set i p }, false)
      | (s', none) => (s', true)
    else (s, true)

/-! ### Cleaning up -/

/-- Apply a substitution from left to right: `m prev s` gives, at the beginning of `s` with the
character `prev` before it, the length of a match and its replacement. The fuel is at least the length
of the text. -/
def subN (m : Option Char → Str → Option (Nat × Str)) : Nat → Option Char → Str → Str
  | 0, _, s => s
  | _ + 1, _, [] => []
  | n + 1, prev, c :: cs =>
    match m prev (c :: cs) with
    | some (k + 1, r) =>
      r ++ subN m n ((c :: cs)[k]?) ((c :: cs).drop (k + 1))
    | _ => c :: subN m n (some c) cs

/-- `re.sub` with a pattern that never matches the empty text. -/
def reSub (m : Option Char → Str → Option (Nat × Str)) (s : Str) : Str := subN m s.length none s

/-- Length of the longest beginning of characters satisfying `p`. -/
def runLen (p : Char → Bool) (s : Str) : Nat := (s.takeWhile p).length

/-- `\(\s+` becomes `(`, `generators/magicprompt.py:38`. -/
def mOpen (_ : Option Char) (s : Str) : Option (Nat × Str) :=
  match s with
  | '(' :: cs => if runLen isSpace cs = 0 then none else some (1 + runLen isSpace cs, c!"(")
  | _ => none

/-- `\s+\)` becomes `)`, `generators/magicprompt.py:39`. -/
def mClose (_ : Option Char) (s : Str) : Option (Nat × Str) :=
  let k := runLen isSpace s
  if k = 0 then none
  else if (s.drop k).head? = some ')' then some (k + 1, c!")") else none

/-- Is there a word boundary between two neighbours? -/
def boundary (isWord : Char → Bool) (a b : Option Char) : Bool := a.any isWord != b.any isWord

/-- `\b\s+\-\s+\b` becomes `-`, `generators/magicprompt.py:42`. -/
def mHyphen (isWord : Char → Bool) (prev : Option Char) (s : Str) : Option (Nat × Str) :=
  let k := runLen isSpace s
  if k = 0 || !boundary isWord prev s.head? then none
  else match s.drop k with
    | '-' :: t =>
      let j := runLen isSpace t
      if j = 0 then none
      else if boundary isWord (t[j - 1]?) (t.drop j).head? then some (k + 1 + j, c!"-") else none
    | _ => none

/-- The class `[,;\.]` of `generators/magicprompt.py:44`. -/
def isListSep (c : Char) : Bool := c == ',' || c == ';' || c == '.'

/-- The class `[a-zA-Z(]` of `generators/magicprompt.py:44`. -/
def isPhraseStart (c : Char) : Bool :=
  ('a'.toNat ≤ c.toNat && c.toNat ≤ 'z'.toNat) || ('A'.toNat ≤ c.toNat && c.toNat ≤ 'Z'.toNat) || c == '('

/-- `\s*[,;\.]+\s*(?=[a-zA-Z(])` becomes `, `, `generators/magicprompt.py:44`. -/
def mComma (_ : Option Char) (s : Str) : Option (Nat × Str) :=
  let k := runLen isSpace s
  let t := s.drop k
  let j := runLen isListSep t
  let u := t.drop j
  let i := runLen isSpace u
  if j = 0 then none
  else if (u.drop i).head?.any isPhraseStart then some (k + j + i, c!", ") else none

/-- `\s+_+\s+` becomes one space, `generators/magicprompt.py:46`. -/
def mUnderscore (_ : Option Char) (s : Str) : Option (Nat × Str) :=
  let k := runLen isSpace s
  let t := s.drop k
  let j := runLen (· == '_') t
  let i := runLen isSpace (t.drop j)
  if k = 0 || j = 0 || i = 0 then none else some (k + j + i, c!" ")

/-- `\b,\s*,\s*\b` becomes `, `, `generators/magicprompt.py:48`. -/
def mEmpty (isWord : Char → Bool) (prev : Option Char) (s : Str) : Option (Nat × Str) :=
  match s with
  | ',' :: t =>
    if !boundary isWord prev (some ',') then none
    else
      let k := runLen isSpace t
      match t.drop k with
      | ',' :: u =>
        let j := runLen isSpace u
        if (u.drop j).head?.any isWord then some (1 + k + 1 + j, c!", ") else none
      | _ => none
  | _ => none

/-- Matches of `\b([\w\s\-]+)(\!+)` from left to right (`re.findall`), with the number of exclamation
marks; the fuel is at least the length of the text. -/
def findBangs (isWord : Char → Bool) : Nat → Option Char → Str → List (Str × Nat)
  | 0, _, _ => []
  | _ + 1, _, [] => []
  | n + 1, prev, c :: cs =>
    let k := runLen (fun c => isWord c || isSpace c || c == '-') (c :: cs)
    let j := runLen (· == '!') ((c :: cs).drop k)
    if boundary isWord prev (some c) && k ≠ 0 && j ≠ 0 then
      ((c :: cs).take k, j) :: findBangs isWord n (some '!') ((c :: cs).drop (k + j))
    else findBangs isWord n (some c) cs

/-- The replacements of `generators/magicprompt.py:51-56`; `weight` is the text of
`round(pow(1.1, n), 2)`. -/
def applyBangs (weight : Nat → Str) : List (Str × Nat) → Str → Str
  | [], s => s
  | (phrase, n) :: ms, s =>
    applyBangs weight ms
      (replaceAll s (phrase ++ List.replicate n '!') (c!"(" ++ phrase ++ c!":" ++ weight n ++ c!")"))

/-- `str.maketrans("{}", "()")` on one character, `generators/magicprompt.py:32`. -/
def deBrace (c : Char) : Char := if c = '{' then '(' else if c = '}' then ')' else c

/-- Models `generators/magicprompt.py:31-56`: everything done to the text after the original prompt
has been removed. `isWord` is the class `\w`. -/
def cleanAdded (isWord : Char → Bool) (weight : Nat → Str) (s : Str) : Str :=
  let s := strip (s.map deBrace)
  let s := stripP (fun c => !isWord c) s
  let s := reSub mOpen s
  let s := reSub mClose s
  let s := reSub (mHyphen isWord) s
  let s := reSub mComma s
  let s := reSub mUnderscore s
  let s := reSub (mEmpty isWord) s
  applyBangs weight (findBangs isWord s.length none s) s

/-- Models `generators/magicprompt.py:24-62` `clean_up_magic_prompt`. -/
def cleanMagic (isWord : Char → Bool) (weight : Nat → Str) (orig prompt : Str) : Str :=
  if startsWith prompt orig then
    orig ++ [' '] ++ cleanAdded isWord weight (prompt.drop orig.length)
  else cleanAdded isWord weight prompt

end Verif
