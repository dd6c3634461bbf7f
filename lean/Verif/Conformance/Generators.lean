import Verif.Conformance.Samplers
/-!
# The repository's own tests of commands, generators and reported issues, evaluated on the model

Tests of the model, not proofs about it.
-/

namespace Verif.Conformance
open Verif

/-! ## `tests/parser/test_commands.py` -/

/-- `test_commands.py:40-49`: adding literals. -/
example : (lit c!"hello").add (lit c!"world") = some (lit c!"hello world") ∧
    (lit c!"Hello").add (choice [c!"world"] 1 1) = none := by decide +kernel

/-- `test_commands.py:53-61`: values of a choice. -/
example : (choice [c!"hello", c!"world"] 1 1).values = [lit c!"hello", lit c!"world"] := by decide +kernel

/-- `test_commands.py:63-74` `test_combinations`. -/
example : getCombos 1 ott = ott.map ([·]) ∧
    (getCombos 2 ott).map (pyJoin c!",") = cross c!"," ott ott := by decide +kernel

/-- `test_commands.py:76-92` `test_range`. -/
example : (match choice ott (-1) 10 with | .variant _ lo _ _ _ => some lo | _ => none) = some 0 ∧
    (match choice ott 2 1 with | .variant _ lo hi _ _ => some (lo, hi) | _ => none) = some (1, 2) := by decide +kernel

/-! ## Templates of `tests/test_smoke.py`, `test_sd_issues.py`, `test_wrapping.py`, `test_variable_features.py` -/

/-- `test_smoke.py:20-59`: numbers of prompts. -/
example : ((listOf .comb c!"foo {0-1$$a|b|c|d}" 10).map List.length) = some 5 ∧
    ((listOf .comb c!"foo {a|b|c|d}" 10).map List.length) = some 4 ∧
    ((listOf .random c!"foo {0-1$$a|b|c|d}" 10).map List.length) = some 10 ∧
    ((listOf .random c!"foo {a|b|c|d}" 10).map List.length) = some 10 := by decide +kernel

/-- `test_sd_issues.py:17-33` `test_sd_223`. -/
example : parse cfg c!"prefix,\n({0$$a|b} {1$$c|d|e}),\nsuffix" = .ok (seq [lit c!"prefix,\n(",
    choice [c!"a", c!"b"] 0 0, lit c!" ", choice [c!"c", c!"d", c!"e"] 1 1, lit c!"),\nsuffix"]) := by decide +kernel

/-- `test_sd_issues.py:36-52` `test_sd_237`. -/
example : parse cfg c!"{2$$ 1| 2| 3} {2$$ 1| 2| 3}" = .ok (seq [choice [c!"1", c!"2", c!"3"] 2 2, lit c!" ",
    choice [c!"1", c!"2", c!"3"] 2 2]) := by decide +kernel

/-- `test_sd_issues.py:55-61` `test_sd_212`. -/
example : parse cfg c!"prompt with closing bra}ce but {parsed|accepted}" =
    .ok (seq [lit c!"prompt with closing bra}ce but ", texts [c!"parsed", c!"accepted"]]) := by decide +kernel

/-- All prompts are among these, and there are as many as asked for. -/
def among (l : Option (List Str)) (k : Nat) (allowed : List Str) : Bool :=
  l.any fun l => l.length == k && l.all fun x => x ∈ allowed

/-- Some draws. -/
def someDraws : List (List Nat) :=
  [[], List.replicate 60 9, [3, 1, 4, 1, 5, 9, 2, 6, 5, 3, 5, 8, 9, 7, 9, 3, 2, 3, 8, 4, 6, 2, 6, 4, 3, 3, 8, 3, 2, 7, 9, 5,
    0, 2, 8, 8, 4, 1, 9, 7, 1, 6, 9, 3, 9, 9, 3, 7, 5, 1, 0]]

/-- `test_sd_issues.py:64-70` `test_sd_307`. -/
example : ∀ d ∈ someDraws, among (listOf .random c!"{2$$__colors-cold__}" 2 d) 2 [c!"blue,green", c!"green,blue"] = true := by
  decide +kernel

/-- `test_sd_issues.py:73-86` `test_sd_324`: with squashed white space. -/
example : ∀ d ∈ someDraws,
    (match listPrompts (system (scfg c!"__" none true)) 60 (ctxOf .random)
      (c!"{\n        # 60% A\n        0.6::A\n        |\n        # 40% B\n        0.4::B\n        }\n        ")
      (some 10) ⟨newMgr disk 0, d⟩ with
    | .ok l _ => among (some l) 10 [c!"A", c!"B"]
    | _ => false) = true := by decide +kernel

/-- `test_sd_issues.py:89-106` `test_dp_28`. -/
example : ∀ d ∈ someDraws, among (listOf .random c!"{1$$A|B|{2$$ and $$X|Y|Z}}" 10 d) 10 [c!"A", c!"B", c!"X and Y",
    c!"X and Z", c!"Y and X", c!"Y and Z", c!"Z and X", c!"Z and Y"] = true := by decide +kernel

/-- `test_sd_issues.py:109-117` `test_sd_358`: every prompt is a combination of two colours. -/
example : ∀ d ∈ someDraws, among (listOf .random c!"{2$$__referencing-colors__}" 2 d) 2 (cross c!"," colours colours) = true := by
  decide +kernel

/-- `test_sd_issues.py:120-135` `test_sd_377`. -/
example : ((listOf .comb (toWildcard c!"__" c!"animals/all-references") 10).any fun l =>
    sameSet l [c!"dog", c!"wolf", c!"cat", c!"tiger", c!"unicorn"]) = true := by decide +kernel

/-- `test_sd_issues.py:147-154` `test_sd_672`. -/
example : ((listOf .comb c!"{|hot,}{|summer,}{|blue sky,}" 9).any fun l => l.any fun x => ',' ∈ x) = true := by decide +kernel

/-- `test_wrapping.py:26-66` with the combinatorial method. -/
example : ∀ p ∈ [
    (c!"%{__wrappers__$${fox|cow}}", [c!"Art Deco, cow, sleek, geometric forms, art deco style",
      c!"Art Deco, fox, sleek, geometric forms, art deco style",
      c!"Pop Art, cow, vivid colors, flat color, 2D, strong lines, Pop Art",
      c!"Pop Art, fox, vivid colors, flat color, 2D, strong lines, Pop Art"]),
    (c!"%{happy … on a meadow$${fox|cow}}", [c!"happy fox on a meadow", c!"happy cow on a meadow"]),
    (c!"%{happy ᠁ on a meadow$${fox|cow}}", [c!"happy fox on a meadow", c!"happy cow on a meadow"]),
    (c!"%{happy ......... on a meadow$${fox|cow}}", [c!"happy fox on a meadow", c!"happy cow on a meadow"]),
    (c!"%{happy ... on a meadow$${fox|cow}}", [c!"happy fox on a meadow", c!"happy cow on a meadow"]),
    (c!"%{happy $${fox|cow}}", [c!"happy fox", c!"happy cow"]),
    (c!"%{... in jail$${fox|cow}}", [c!"fox in jail", c!"cow in jail"]),
    (c!"%{ {cool|hot} ...$${fox|cow}}", [c!"cool fox", c!"cool cow", c!"hot fox", c!"hot cow"])],
    ((listOf .comb p.1 10).any fun l => sameSet l p.2) = true ∧
    ∀ d ∈ someDraws, among (listOf .random p.1 3 d) 3 p.2 = true := by decide +kernel

/-- `test_variable_features.py:9-41`. -/
example : ∀ ww ∈ wraps,
    (listOf .random c!"${animal={fox|manatee}} __publicprompts/plush-toy__" 2 [0, 0, 0, 0, 0, 9] ww).any (fun l =>
      (l.map strip).zip [c!"Cute kawaii Squishy fox", c!"Cute kawaii Squishy manatee"] |>.all fun q =>
        startsWith q.1 q.2) = true ∧
    (listOf .random c!"__publicprompts/plush-toy(animal=fox)__" 1 [] ww).any (fun l =>
      l.all fun x => startsWith x c!"Cute kawaii Squishy fox") = true := by decide +kernel

/-! ## `tests/generators` -/

/-- The value of a generator. -/
def gen {α : Type} (op : M (Sys Nat (List Nat)) α) (draws : List Nat := []) : Option α :=
  match op ⟨newMgr disk 0, draws⟩ with
  | .ok a _ => some a
  | _ => none

/-- Re-seeding: the seed is recorded among the draws. -/
def reseed (n : Int) (s : Sys Nat (List Nat)) : Sys Nat (List Nat) := { s with rand := s.rand ++ [n.toNat] }

/-- `test_random.py:18-33`: a literal template, a wildcard. -/
example : gen (randomGenerate (system (scfg c!"__")) 60 reseed c!"I love bread" 10 .none) =
      some (List.replicate 10 c!"I love bread") ∧
    gen (randomGenerate (system (scfg c!"__")) 60 reseed c!"I saw a __animals/mammals/*__" 4 .none) [1, 1, 3, 2] =
      some [c!"I saw a dog", c!"I saw a dog", c!"I saw a wolf", c!"I saw a tiger"] := by decide +kernel

/-- `test_random.py:39-42` `test_generate_with_seeds_wrong_length`. -/
example : (match randomGenerate (system (scfg c!"__")) 60 reseed [] 3 (.list [42, 44]) ⟨newMgr disk 0, []⟩ with
    | .err .value _ => true
    | _ => false) = true := by decide +kernel

/-- `test_random.py:44-66`: the seeds used. -/
example : ∀ p ∈ [(Seeds.list [42, 43], [42, 43]), (.list [42], [42, 42]), (.int 42, [42, 42])],
    (match randomGenerate (system (scfg c!"__")) 60 reseed c!"test_template" 2 p.1 ⟨newMgr disk 0, []⟩ with
    | .ok _ s => s.rand == p.2
    | _ => false) = true := by decide +kernel

/-- `test_random.py:68-75` `test_cyclical_sampler_with_seeds`. -/
example : gen (randomGenerate (system (scfg c!"__")) 60 reseed c!"A {@red|green|blue} ball" 3 (.list [1, 2, 3])) =
    some [c!"A red ball", c!"A green ball", c!"A blue ball"] := by decide +kernel

/-- `test_combinatorial.py:9-98`. -/
example :
    let food := withValues [c!"bread", c!"butter", c!"cheese"]
    gen (combGenerate (system (scfg c!"__")) 60 c!"I love bread" (some 10)) = some [c!"I love bread"] ∧
    gen (combGenerate food 60 c!"I love __food__" (some 10)) =
      some [c!"I love bread", c!"I love butter", c!"I love cheese"] ∧
    gen (combGenerate food 60 c!"I love __food__" (some 2)) = some [c!"I love bread", c!"I love butter"] ∧
    gen (combGenerate food 60 c!"{2$$ and $$A|B|C}" none) =
      some [c!"A and B", c!"A and C", c!"B and A", c!"B and C", c!"C and A", c!"C and B"] ∧
    gen (combGenerate food 60 c!"{2$$|$$A|B|C}" (some 9)) =
      some [c!"A|B", c!"A|C", c!"B|A", c!"B|C", c!"C|A", c!"C|B"] ∧
    ∀ limit ∈ [none, some 9], gen (combGenerate food 60 c!"I love __food__ and __drink__" limit) =
      some [c!"I love bread and bread", c!"I love bread and butter", c!"I love bread and cheese",
        c!"I love butter and bread", c!"I love butter and butter", c!"I love butter and cheese",
        c!"I love cheese and bread", c!"I love cheese and butter", c!"I love cheese and cheese"] := by decide +kernel

/-- A generator that records the number it is asked for. -/
def mockGen : PGen (Sys Nat (List Nat)) := fun _ num s =>
  .ok [c!"image1", c!"image2"] { s with rand := s.rand ++ [num.toNat] }

/-- `test_batched_combinatorial.py:10-33`. -/
example : gen (batchedGenerate mockGen 1 c!"template" maxImages) = some [c!"image1", c!"image2"] ∧
    gen (batchedGenerate mockGen 3 c!"template" maxImages) =
      some [c!"image1", c!"image2", c!"image1", c!"image2", c!"image1", c!"image2"] ∧
    (match batchedGenerate mockGen 1 c!"template" 5 ⟨newMgr disk 0, []⟩ with
    | .ok _ s => s.rand == [5]
    | _ => false) = true := by decide +kernel

/-- `test_feelinglucky.py:34-41` `test_generate`. -/
example : gen (luckyGenerate (Sys.onRand script) (fun _ => []) (fun _ => pure [some c!"ABC", some c!"XYZ"])
    (fun _ _ => pure [c!"Prompt"]) c!"This is a test" 1) = some [c!"ABC"] := by decide +kernel

/-- `test_attentiongenerator.py:15-23` `test_cheap_chunker`. -/
example : cheapChunker (fun c => '0' ≤ c && c ≤ '9') c!"purple cat singing opera, artistic, painting (best quality:1.3)" =
    [c!"purple cat singing opera", c!"artistic", c!"painting", c!"best quality"] := by decide +kernel

/-- Letters, digits and the underscore. -/
def word (c : Char) : Bool :=
  ('a' ≤ c && c ≤ 'z') || ('A' ≤ c && c ≤ 'Z') || ('0' ≤ c && c ≤ '9') || c = '_'

/-- `round(pow(1.1, n), 2)` for the numbers of the tests. -/
def bangWeight (n : Nat) : Str := if n = 1 then c!"1.1" else c!"1.21"

/-- `test_magicprompt.py:39-97` `test_cleanup_magic_prompt`. -/
example : ∀ o ∈ [c!"Original prompt", c!"[Original|prompt]", c!"{Original|prompt}", c!"Original - prompt"], ∀ p ∈ [
    (c!" - This is a {prompt} xyz", c!" This is a (prompt) xyz"),
    (c!"  $$ This is a prompt $$", c!" This is a prompt"),
    (c!" This ( is ) a prompt", c!" This (is) a prompt"),
    (c!" This is - a prompt", c!" This is-a prompt"),
    (c!" This is a prompt; another prompt", c!" This is a prompt, another prompt"),
    (c!" This is. a prompt; another prompt", c!" This is, a prompt, another prompt"),
    (c!"This is a prompt _ another prompt", c!" This is a prompt another prompt"),
    (c!" This is a prompt , , another prompt", c!" This is a prompt ,, another prompt"),
    (c!" This is a prompt! dddd", c!" (This is a prompt:1.1) dddd"),
    (c!" This is a prompt!! dddd", c!" (This is a prompt:1.21) dddd")],
    cleanMagic word bangWeight o (o ++ p.1) = o ++ p.2 := by decide +kernel

/-! ## `tests/generators/test_jinja.py`: the functions; templates are given by what they do -/

/-- The context of `test_jinja.py:17-20`: the parser has the wrap string of the manager. -/
def jinjaEnv (ww : Str) : Env (Sys Nat (List Nat)) :=
  system ⟨wcfg ww, { cfg with wildcardWrap := ww }, script, false, none⟩

/-- A template with a prompt block for every element of a list. -/
def forEach (pre : Str) (items : M (Sys Nat (List Nat)) (List Str)) : Render (Sys Nat (List Nat)) := (do
  let l ← items
  return (c!"\n", l.map (pre ++ ·)) : M (Sys Nat (List Nat)) (Str × List Str))

/-- `This is a {{ choice('red', 'blue') }} rose`. -/
def oneChoice : M (Sys Nat (List Nat)) (Str × List Str) := do
  let c ← jinjaChoice (Sys.onRand script) [c!"red", c!"blue"]
  return (c!"This is a " ++ c ++ c!" rose", [])

/-- `This is a {{ choice('red', 'blue') }} {{ choice('triangle', 'square') }}`. -/
def twoChoices : M (Sys Nat (List Nat)) (Str × List Str) := do
  let c ← jinjaChoice (Sys.onRand script) [c!"red", c!"blue"]
  let d ← jinjaChoice (Sys.onRand script) [c!"triangle", c!"square"]
  return (c!"This is a " ++ c ++ c!" " ++ d, [])

/-- `test_jinja.py:24-45`: literals and choices. -/
example : gen (jinjaGenerate (some (M.pure (c!"This is a literal prompt", []))) false false 1) =
      some [c!"This is a literal prompt"] ∧
    gen (jinjaGenerate (some oneChoice) false false 3) [0, 1, 0] =
      some [c!"This is a red rose", c!"This is a blue rose", c!"This is a red rose"] ∧
    gen (jinjaGenerate (some twoChoices) false false 2) [0, 0, 1, 1] =
      some [c!"This is a red triangle", c!"This is a blue square"] := by decide +kernel

/-- `test_jinja.py:47-91`: prompt blocks, and a limit. -/
example :
    let t := forEach c!"My favourite colour is " (pure [c!"red", c!"blue", c!"green"])
    let e := [c!"My favourite colour is red", c!"My favourite colour is blue", c!"My favourite colour is green"]
    gen (jinjaGenerate (some t) false false 1) = some e ∧ gen (jinjaGenerate (some t) false false 2) = some (e ++ e) ∧
    gen (jinjaGenerate (some t) true false 2) =
      some [c!"My favourite colour is red", c!"My favourite colour is blue"] := by decide +kernel

/-- `test_jinja.py:93-113` `test_wildcards`. -/
example : ∀ ww ∈ wraps, ∀ w ∈ [c!"colors-cold", toWildcard ww c!"colors-cold"],
    gen (jinjaGenerate (some (forEach c!"My favourite colour is " (jinjaWildcard (jinjaEnv ww) 60 w))) false false 1) =
      some [c!"My favourite colour is blue", c!"My favourite colour is green"] := by decide +kernel

/-- The values of `test_jinja.py:127-139` and `:160-166`. -/
def nestedEnv (ww : Str) (deep : Bool) : Env (Sys Nat (List Nat)) :=
  { jinjaEnv ww with getValues := fun w => pure ((
      if w = c!"colours" then [c!"pink", c!"yellow", toWildcard ww c!"blacks", c!"purple"]
      else if w = c!"blacks" then (if deep then [c!"black", toWildcard ww c!"greys"] else [c!"black", c!"grey"])
      else [c!"light grey", c!"dark grey"]).map (⟨·, none⟩)) }

/-- `test_jinja.py:115-176` `test_nested_wildcards`, `test_deep_nested_wildcards`. -/
example : ∀ ww ∈ wraps,
    gen (jinjaWildcard (nestedEnv ww false) 60 (toWildcard ww c!"colours")) =
      some [c!"pink", c!"yellow", c!"black", c!"grey", c!"purple"] ∧
    gen (jinjaWildcard (nestedEnv ww true) 60 (toWildcard ww c!"colours")) =
      some [c!"pink", c!"yellow", c!"black", c!"light grey", c!"dark grey", c!"purple"] := by decide +kernel

/-- `test_jinja.py:189-214` `test_random_sample`, `test_all_combinations`. -/
example : gen (jinjaRandomSample (jinjaEnv c!"__") 60 reseed c!"A {blue} {daisy}") = some c!"A blue daisy" ∧
    gen (jinjaAllCombinations (jinjaEnv c!"__") 60 c!"A {red|blue|green} {rose|daisy}") = some [c!"A red rose",
      c!"A red daisy", c!"A blue rose", c!"A blue daisy", c!"A green rose", c!"A green daisy"] := by decide +kernel

/-- `test_jinja.py:216-223` `test_invalid_syntax_throws_exception`. -/
example : (match (jinjaGenerate none false false 1 : M (Sys Nat (List Nat)) (List Str)) ⟨newMgr disk 0, []⟩ with
    | .err .generator _ => true
    | _ => false) = true := by decide +kernel

/-- `test_jinja.py:244-252` `test_weighted_choice`. -/
example : gen (jinjaWeightedChoice (Sys.onRand script)
    [(c!"pink", 2 / 10), (c!"yellow", 3 / 10), (c!"black", 4 / 10), (c!"purple", 1 / 10)]) [3] = some c!"yellow" := by
  decide +kernel

/-- `test_jinja.py:254-271` `test_permutations`. -/
example : permutation [c!"red", c!"green", c!"blue"] 1 (some 2) = .ok [[c!"red"], [c!"green"], [c!"blue"],
    [c!"red", c!"green"], [c!"red", c!"blue"], [c!"green", c!"red"], [c!"green", c!"blue"], [c!"blue", c!"red"],
    [c!"blue", c!"green"]] := by decide +kernel

/-- `test_jinja.py:273-291` `test_ignore_whitespace`. -/
example :
    let t := forEach c!"My favourite colour is\n              " (pure [c!"red", c!"blue", c!"green"])
    ((gen (jinjaGenerate (some t) false false 1)).any fun l => l.all fun p => '\n' ∈ p) = true ∧
    ((gen (jinjaGenerate (some t) false true 1)).any fun l => l.all fun p => '\n' ∉ p) = true := by decide +kernel

end Verif.Conformance
