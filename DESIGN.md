# Formal model of dynamicprompts: design

## 1. Approach

The library is a tree-walking sampler over Python generators, a parser built with
pyparsing, and a manager of wildcard files with a cache.  The model is a set of
total Lean functions that mirror the Python functions branch by branch.

* Strings are `List Char` (`Str`).  Python exceptions are values of `Err`.
* `rand` is an arbitrary lawful source: a state `W`, `randbelow n` (< n) and
  `random()` (in [0,1)).  Everything above it (`randint`, `choice`, `choices`,
  `shuffle`) is built as CPython builds it.  Theorems quantify over every such
  source, so they hold for every seed and every sequence of draws.
* Python generators are first-order state values (`Gen`); `next(gen)` is a
  function `Gen -> W -> result`.  The only unbounded loops in the code are inside
  `next` (a generator may run forever without yielding), so `next` is iterated
  with fuel; running out of fuel means "has not answered yet".  Results do not
  depend on the fuel once there is enough (proved), so statements quantify over
  every fuel or say "there is a fuel".
* PEP 479 is modelled: a StopIteration escaping inside a generator body becomes
  RuntimeError.
* The world of a sampling run is a type parameter.  `Model/System.lean` fills it
  with the modelled manager (files, cache, settings) and a random state, so that
  the theorems about the sampler, the parser and the manager can be composed.

## 2. Layout

| module | contents |
|---|---|
| `Verif/Py/*` | Python string and list helpers (`str.split`, `strip`, `splitlines`, `fnmatch`, ...) |
| `Verif/Model/Command` | command classes, bounds, selections, wrapping |
| `Verif/Model/Monad` | results with exceptions, random source, `choices`, `shuffle`, `dedupe`, weighted choice |
| `Verif/Model/Engine` | sampling context and the three samplers as generator states |
| `Verif/Model/Parser` | `parser/parse.py` with the parts of pyparsing 3.1.0 it uses |
| `Verif/Model/Glob`, `Files`, `Manager` | name cleaning, `fnmatch`, directory walk, text/JSON/YAML collections, tree, root map, manager and cache |
| `Verif/Model/Generators` | random, combinatorial, batched, Jinja, magic prompt, attention, feeling lucky, dummy |
| `Verif/Model/System` | sampler + parser + manager together |
| `Verif/Model/Process` | many generators and open iterators over one manager, interleaved |
| `Verif/Model/Bytes` | files as bytes: UTF-8 decoding |
| `Verif/Model/Links` | file systems with symbolic links |
| `Verif/Model/Crash` | writes that are interrupted |
| `Verif/Model/Entries` | entries of structured files whose text is not a string |
| `Verif/Model/Values` | wildcard values as a collection, commands made by code |
| `Verif/Model/Keywords` | the keyword finder of the attention generator and its caches |
| `Verif/Model/Bits` | random numbers from random bits |
| `Verif/Model/Translate` | the regular expressions `fnmatch` builds |
| `Verif/Spec/*` | small specifications that do not mention the model's internals |
| `Verif/Proofs/*` | helper lemmas |
| `Verif/Props/*` | the property theorems, with concrete instances beside them |
| `Verif/Conformance/*` | the repository's own test expectations, evaluated on the model: tests of the model, no property rests on them |

## 3. Plan per property

`MANIFEST.json` names the theorems.  Where the code does not do what one would expect
(C01, C09, C10, C14, C45, C53, ...), the property states exactly what it does, exceptions
included, and a theorem shows a case of the exception.  There are no partial claims at
present.

| id | modelled by | proof |
|---|---|---|
| C01 | combinatorial sampler states | denotation `enum` by recursion on the template; `next` simulated by induction on the template. With the ending (RuntimeError if a token has no text): `runs` in Spec/Endings |
| C02 | `combVar` state with its `seen` set | invariant over every run |
| C03 | `getCombos` | equality with filtered Cartesian powers, induction on k |
| C04 | `sample_prompts` + `islice` | induction on n |
| C05 | `_get_sequence` with CommandCollection | predicates per prompt (`Counted`), arbitrary random source |
| C06 | cyclical and combinatorial states | simulation between worlds with different random sources |
| C07 | every sampler | inductive language `Lang`; invariant on generator states |
| C08 | `VariantCommand.__post_init__`, `adjust_range` | arithmetic, C07 |
| C09 | `choose_without_replacement` | induction on the number of draws; a single value is returned whatever k is |
| C10 | `choices`/`bisect` | bisect specification. For several draws: exact criterion on the weights (invariant: the zeros stay in place) |
| C11, C12 | cyclical states | closed form by induction on template and k |
| C13 | random states | productivity invariant, coinductive style (`Live`) |
| C14 | seeds loop | simulation; templates that keep nothing between prompts (`Memoryless`). Each excluded kind of template is shown to be a real exception |
| C15-C19 | `SamplingContext` | cases, induction on definition chains |
| C20 | `get_sampler_and_context` | cases, invariant on reachable generator states |
| C21-C24 | string helpers | list induction |
| C25, C26 | wildcard name functions | list induction |
| C27-C31 | manager state machine | invariant over histories of operations |
| C30 | `fnmatch` translation | specification by segments, induction on the pattern |
| C32, C33 | text collection | induction over histories |
| C34, C35, C36 | tree, root map, structured files | induction on maps and documents |
| C37, C38 | `WildcardValues` | induction |
| C39 | fallback generator | computation of states |
| C40, C41, C54 | `generate` methods | induction on seeds/batches |
| C42 | Jinja generator and extension functions | templates are arbitrary programs over the modelled functions |
| C43, C44, C45 | magic prompt | the language model is an arbitrary function. C44: each rule works on the texts before and after its place separately. C45: exact state after every sequence of operations, failed loads included |
| C46, C47 | attention, feeling lucky | spaCy and the web service are arbitrary functions |
| C48, C49, C50, C57-C62, C67, C68, C69 | the parser | mutual induction on templates (`Piece`) for reading back, for any marks that can be told apart (`Marks.usable`); induction on fuel for termination; see section 5 |
| C51, C66 | combinatorial sampling with wildcards and variables | relation `Lists`, induction on derivations; C66 composes with parser and manager |
| C52, C53 | directory walk and structured files | induction on the file tree. C53: the last directory loses its suffix |
| C55 | random sampling reaches every prompt | relation `Could`, a source that yields given draws |
| C56 | weighted wildcard draws | induction on draws |
| C70, C71 | random states | relation `ChancePrompt` (distributions with rational chances); events on the draws, labelled with the result, multiply along `bind`. Probabilities: finitely additive measures (`Fair`) over the reals; a fair source is built as an ultrafilter limit of uniform finite tapes |
| C63, C64, C65 | `Model/System` | simulation between the manager and a fixed table (`shelf`), invariant over histories; C64 with shuffling: the language of a template does not depend on the order of the values (induction over derivations) |
| C72, C73 | `Model/Process`: random generator objects, contexts and lazy iterators over one shared manager, in any interleaving | simulation with the shelf for each action, induction on the schedule |
| C74, C75 | parser and samplers | invariant `Made` (which characters the texts of a command have, which methods it may ask for), kept by the parser, by sampling and by `Part`; induction on `Lang` |
| C76 | parser with any marks | a liberal grammar (`Spec/Grammar.lean`, relations between a text and what is left of it); every parser of the model returns only what the grammar reads, by induction on the fuel; braces by induction on the grammar |
| C77, C78 | samplers, parser, manager | which commands can be involved (`Spec/Causes.lean`: `Involved`, `Defines`, `Needs`, `Asks`) and which exceptions have a cause in them; an invariant of generators relative to any closed sets of commands, bindings, methods and exceptions (`Inv` in `Proofs/Errors`), a second one for generators that still have a text to give (`Proofs/Dry`), instantiated with the causes; texts by the shape of parsed templates (C58), files by C63 |
| C79, C80 | samplers, parser, manager | causes of hangs (`Spec/Hangs.lean`: `Endless`); generators that always answer, as a greatest fixed point over the limit of the fuel, and generators that finish, as a least one (`Proofs/Halts`); both shown for every command by well-founded induction along what a command needs (`Proofs/Hangs`); for texts the names of wildcards are parsed as plain texts (`Proofs/ParserNames`), so finitely many commands are involved and an endless chain returns to a wildcard (`Proofs/HangsText`); files by C63 |
| C81, C82 | `get_file`, `get_collection_names`, `get_all_values`, `WildcardValues` | the tree of a manager fits the files (invariant of C27), hence its map lists the same names; a pattern without pattern characters gathers one collection; lists |
| C83 | constructors of commands (`Model/Values`) | the template is written as parts of C49, whose meaning is the command; C01 and C07 for sequences |
| C84 | cyclical sampling with a manager | periods by induction on the closed form of C11 (common multiples; round robin of n streams of period p has period n p); files as in C63 |
| C85 | random, combinatorial and cyclical sampler, with wildcards, variables and assignments | one induction over the relation of Spec/SameTexts shows that the language of C07, the list of C05 and what C55 says random sampling could return are the same; composed with C63 and C68 |
| C86 | `Arith`: addition and multiplication of weights as any functions with five laws | floating point with p bits and rounding to nearest obeys the laws (`floats`); running sums are within (1 ± 2⁻ᵖ)ⁱ of the exact ones by induction |
| C87 | `get_sequence` and `CommandCollection` of `combinatorial.py`, `_get_sequence` of `base.py` | invariant of the collection indexed by the number of values taken for each command (`CollAt`), `Streams` of cyclical parts (C11); C70, C71, C80 and C87 are composed with the parser and the manager in `Props/Composed` |
| C88 | the loop of CPython's `random.shuffle`, `random.choices` without weights, `choice` and `weighted_choice` of `jinja_extensions.py`, `feelinglucky.py` | the outcomes of the draws of the loop, one event per arrangement of the positions (n! different ones, hence all), then `Fair` as for C70 |
| C89 | `Model/Keywords`: the attempts to get a finder and two least-recently-used caches, over an arbitrary library | invariant: the cached texts are the ten asked for last, with the finder's answers |
| C90 | `Model/Links`: path resolution with links, os.walk following links, on a tree with link nodes | the tree with links replaced shows at each path what the path leads to (induction on the links still allowed); the walk by induction on the height of that tree |
| C91 | `Model/Bytes`: CPython's UTF-8 decoder, ignoring errors and strict; directories with bytes | one step of the decoder against Lean's encoding of characters, by cases; the rest by induction on the bytes |
| C92 | `Model/Entries`: structured entries with any value as their text | cases on entries, induction on lists; compared with the items of `Model/Files` |
| C93 | `Model/Crash`: all states of the disk while a file is written | induction on the text for the decoding of a cut character, on lines for the values, on the path for the walk over the files |
| C94 | no new model; `Spec/Footprint` says which names can be asked for and which collections a lookup looks at | simulation of two runs, with an invariant on generator states: all wildcards reachable from a state ask only for permitted names |
| C95 | no new model; `Spec/Edits` relates two token lists that differ in plain text, and the rows of texts their prompts consist of | lockstep simulation of the two runs with a relation on generators, frames and collections |
| C96 | no new model; `Spec/WrittenOut` relates a template and the one in which wildcards are written out | the specifications of the three samplers and of the language agree on the two, by induction on the parts; then the theorems that these specifications describe the runs |
| C97 | no new model; `Spec/Renaming` renames the variables of commands, contexts and templates | the two runs are related step by step (simulation of generator states), by induction on the depth of sampling; the reading of unambiguous templates (C49) commutes with renaming |
| C98 | no new model; `Spec/Proportions` multiplies weights (`Cmd.scale`), states what is asked of the arithmetic (`Proportional`) and relates templates with proportional weights choice by choice (`Reweighted`) | the two runs are related step by step (simulation of generator states), weighted choice commuting with multiplication; chances by induction on their derivations |
| C99 | no new model; `Spec/Reordering` relates templates whose options are in another order | induction on the relation; texts of a choice are compared as sets of tuples without repetition, chances by the means of all functions (invariant under permutations of what is left to pick from) |
| C100 | no new model; `Spec/Laws` relates templates whose options are replaced by copies | induction on the relation; removing duplicates removes the copies, and the mean over copies is the mean over the option with the sum of their weights |
| C101 | no new model; `Spec/Laws` (`Within`, `Nested`) | the frame (`Proofs/Laws`) lifts any law that keeps lists and chances to every depth; the mean over the inner choice is a mean over the flat one |
| C102 | no new model; `Spec/Laws` (`Grouped`) | same frame; the product of the lists of the parts does not depend on how they are grouped |
| C103 | no new model; `Spec/Laws` (`Common`, `Law`) | same frame; joining a text to every member of a list commutes with removing duplicates and with taking means |
| C104 | no new model; `Spec/Abbreviations` relates a template to the one with its variables written out | commands without variables do not depend on the variables (induction on lists, chances and cycles); induction on the relation |
| C105 | `Model/Bits`: `_randbelow_with_getrandbits` and `random()` of CPython from `getrandbits` | lower bounds for every event by induction (rejection sampling as a limit); the events and their alternatives add up to one, so the bounds are exact; counting the 53-bit numbers in an interval |
| C106 | `Model/Translate`: `fnmatch.translate` of CPython 3.11, the character classes of `re`, matching with atomic groups | items of a bracket expression as an intermediate form; the first fit leaves the longest rest, induction on the stars |
| C107 | no new model | `Spec/Circular`: what cannot be left out; derivations of texts (C07) are finite, induction on them |
| C108 | no new model (floats of C86, bits of C105) | bounds of C86 for the number that draws an option, made into intervals; probabilities of these, of earlier and of later options |
| C109 | no new model | Spec/Wider: wider templates and environments; induction over what random sampling could give (C55), with C85 for templates on which the methods agree |
| C110 | no new model | Spec/Lone: the choice written out; equality of the generators with enough fuel; the law machinery of C100–C103 for places inside a template |
| C111 | no new model | Spec/Relabel: commands, templates and settings with renamed wildcards; both runs in lockstep (the relation of C97 with two settings) |
| C112 | `Model/Encodings`: text collections with an encoding, several of them on a disk with bytes | invariants over histories of calls; refinement of the manager's text collections |
| C113 | `Model/LinkWrites`: opening a file for writing on a file system with links | an inductive relation for where a path leads, and what writing at one place leaves alone |
| C114 | the combinatorial sampler and its generators | inductive predicates `Spec.NeverEnds` saying which templates have no end and what the prompt number i is; induction over them |
| C115 | the combinatorial sampler and its generators | an inductive predicate `Spec.Starving` with a bound on the number of prompts; at every amount of fuel there is no answer or one of finitely many new texts |

## 4. Trusted base

* Lean 4 kernel.
* Axioms: every theorem depends on a subset of `propext`, `Classical.choice`,
  `Quot.sound`.  No axioms are added, no `sorry`, no `native_decide`, no `bv_decide`.
* That the model reflects the Python code is by reading; each definition cites its
  lines in /repo, or in pyparsing and the standard library where those are modelled.
  As a check of the reading, `Verif/Conformance` evaluates in the kernel what the tests in
  /repo/tests expect of the code: templates, commands, wildcard files, samplers (with the draws
  that make the mocked choices), generators, clean-up.  All of these expectations hold of the
  model.  Left out: keyword arguments, statistics over many draws, mocks of
  external libraries.
* That the specifications in `Verif/Spec` say what is meant is by reading; each one
  has concrete instances beside the theorems, computed with `decide +kernel`.

## 5. Simplifications

* Weights, attention weights and probabilities are rationals. Sums of weights and products with random numbers may be rounded: `Rng.arith` is any arithmetic with the laws of `Arith`, of which floating point is a case (C86; no limits on exponents). A weight in a template or file is the decimal number written there, not the float nearest to it (C108 also covers weights rounded when they are read).
* Random source: `randbelow` and `random` are arbitrary; C70, C71, C88 and the properties built on
  them give probabilities for an ideal source, C105 for one that makes its numbers from fair bits the
  way CPython does.  The Mersenne Twister is not modelled: how fair its bits are is not part of the model.
* pyparsing 3.1.0 is modelled by hand: whitespace skipping, `MatchFirst`, `Opt`,
  `ZeroOrMore`, `delimited_list`, `Combine`, `Regex` (as explicit scanners),
  `parse_all`, `ignore` comments, tab expansion, parse actions, packrat caching as
  plain recomputation.  Digits in numbers are ASCII.  Which non-ASCII characters are
  alphanumeric is a parameter (`al`).  Nesting deeper than Python's recursion limit
  is not modelled.
* Files: a finite tree of directories, text files and entries that cannot be opened; a
  directory may list its entries in any order.  A file system with symbolic links is first
  replaced by the tree it shows (C90), and bytes by
  the texts they show (C91); writing through links is modelled for single files only (C113).  Encodings other than UTF-8 (except in C112)
  and directories without permission are left out.
* `json.load` and `yaml.safe_load` are arbitrary functions from text to documents
  (strings, numbers, lists, maps, other) or failure.
* `fnmatch`: modelled twice, as a matcher on the pattern and as the regular expression CPython 3.11
  builds; C106 shows that they agree.  The regular expression is modelled as its parts (a character
  class is read from its text), not as one text that `re` parses.
* In the manager, the content of an entry that is not a string is turned into one when the file is read; C92 says when this makes a difference.
* Jinja2's syntax, spaCy, transformers and HTTP are arbitrary functions.
* The regular expressions of the magic prompt clean-up are explicit scanners; which
  characters count as word characters or whitespace is a parameter where it matters.
* A process (`Model/Process`) has one wildcard manager and no threads; calls of different
  objects interleave between calls of `next`, not inside them.  A call that has not
  answered within the fuel leaves the process as it was.
* Logging, warnings, `__repr__`, type annotations and memory limits are left out.

## 6. What the proofs brought to light

Behaviour that a user might not expect.  (T) means there is a theorem or a checked
example in `Verif/Props`; the others were met while modelling.

Sampling
1. `choose_without_replacement` removes the first weight equal in value to the chosen
   one, so weights and options can get out of step: an option of weight zero can be
   chosen by the second draw (T, C10).
2. Combinatorial `{a|__missing__}` never ends after `a`; `{a|b} __missing__` never
   reaches `b` (T, C79).
3. `{2$$__missing__}` yields nothing; in a sequence it is a RuntimeError (T, C110).
4. A random wildcard whose values are all empty texts loops for ever; wildcards that need each other give
   nothing at all (T, C107).
5. A wildcard with unequal weights draws ten values at a time, so later seeds have no
   effect on the values already drawn (T, C14, C56).
6. `seeds=0` and `seeds=[]` count as no seeds (T, C40); `generate("", seeds=[1])`
   raises StopIteration (T, C40).
7. `${a=x}${a?=y}` overwrites: assignments of one sequence do not see each other (T, C16).
8. `${x=} ${x:d}`: an empty value counts as undefined and the default is not used (T, C17).
9. Immediate variables are evaluated once per generator object, not once per prompt (T, C15).
10. Combinatorial `${x={~a|b}} ${x}` is infinite (T, C114).
11. `{2$$a|a}`: combinatorial yields nothing, cyclical hangs, random yields `a,a` (T, C79).
12. A single option ignores the bounds at random; `choose_without_replacement([a], k=0)`
    returns `[a]` (T, C09).
13. A wildcard alone in braces loses its parameters and its own method (T, C110).
14. `{2$$a|0::b|0::c}` at random raises ValueError (T, C09).
15. A missing wildcard whose path is a template is sampled again for the echo (T).
16. A random wildcard with a random path samples its path once per generator (T).
17. In a combinatorial sequence a token without texts raises RuntimeError (T, C01).

Manager and files
18. Turning shuffling on or off does not clear the cache (T, C27); shuffling uses the
    global random generator.
19. `write_text` does not invalidate the manager's cache (T); two collection objects
    for one file do not see each other's writes (T, C33).
20. A directory with a dot loses its "suffix" in the names of JSON/YAML collections but
    not of text files (T, C53).
21. `get_values("__w__")` falls back to names ending with `/__w`, not `/w` (T, C31).
22. A list with a weighted entry whose weight is not a number is dropped whole (T, C36).
23. Names with empty segments look different in the tree than in the map (T, C34).
24. The backslash test in `clean_wildcard` cannot succeed (T, C25).
24a. A `.txt` link that leads nowhere, or a text file without permission, is listed as a collection and makes
    every lookup that matches its name raise OSError (T, C90).  Links in circles do not make loading hang, but
    every file in the circle is loaded up to 41 times (T, C90).
24b. A text file saved with a byte order mark has U+FEFF in front of its first value; a comment in its first line
    becomes a value (T, C91).  A JSON or YAML file with one undecodable byte is left out whole, a text file is not (T, C91).
24c. An entry `{text: 5, weight: 2}` makes every lookup that finds it raise TypeError; `{text: 5}` is fine, but is not the
    same value as the string `5` (T, C92).

Generators
25. Magic prompt: the model name is stored before the model is loaded; after a failed
    load the same name leaves the generator without a model; the name is shared by all
    instances (T, C45).
26. Magic prompt: a phrase with one and with two `!` leaves a stray `!`; results of the
    last retry are not checked against the blocklist (T, C43, C44).
27. Attention: rounding may leave the interval if its limits are finer than 0.01 (T, C46).
28. Feeling lucky: exceptions of the inner generator and an empty answer escape
    unwrapped (T, C47).

Parser
29. A lone `%` or `$` in text is a syntax error: `50% off`, `$5` (T).
30. Tabs are expanded to columns of eight, before parsing (T, C61).
31. Pieces of a literal separated by a comment are joined with an extra space (T).
32. `__${a:{x|y}}__` raises AttributeError (T).
33. A comment after a number in an option can expose a `$$` that belongs to a nested
    wrap: `{2/*|%{b*/$$c}}` (T).
34. Negative weights are accepted if they have a decimal point: `{-1.0::a|b}`;
    `{-1::a|b}` is a text with a colon (T).
35. Comments are recognised only at the beginning of an element: `a // b` and `a /* b */`
    are plain text, `a # b` is not; whitespace-only text before a comment is dropped (T).
36. A text of comments only gives one empty prompt; the command it is parsed to gives
    none (T, C60).
37. If only the marks of variants are changed (`<a|b>`), `${x=a}`, `${x:a}` and `%{a$$b}`
    are syntax errors in every template: `}` no longer ends a text inside a part (T, C69).
38. Separators exclude `{` and `}`, whatever the marks: with `<` and `>`, `<1$$a|b>, <2$$c|d>`
    is one variant whose separator is `a|b>, <2` (T).
39. In a combinatorial variant, an option that is a variable whose definition asks for another method
    (`${x={~a|b}}{${x}|c}`) is treated as finite; once all its texts were given, the next prompt never comes
    (repeated texts are skipped for ever) (T, C115).
40. A combinatorial wildcard without values gives its own name for ever; in a variant, `{__missing__|a}` hangs
    after its first prompt, and `a` never comes (T, C114, C115).
41. A value such as `{~a|b}` of a combinatorial wildcard, or a part of a wrap with another method, makes the
    combinatorial iteration endless (T, C114).
42. A sequence made by code with a separator gives different texts for the samplers if its first or last text is
    empty or begins or ends with the separator: combinatorial keeps everything, random and cyclical strip one
    separator from each end (example in `Props/Builders`).
43. Magic prompt: a phrase with `!` that is the end of a later one (`hat!, red hat!`) is weighted inside the later
    one, which then gets no weight of its own (example in `Props/Bangs`); marks at the very end are dropped.
44. Equal cyclical parts of a combinatorial sequence share one generator: `{1|2|3}{@a|b|c}{@a|b|c}` gives
    `1ba`, `2ac`, `3cb`, although cyclical parts of equal length are documented to stay in sync
    (example in `Props/Mixed`).
45. `write_text` of a file collection that fails leaves its cached values as they were (T, C93).
46. With several picks and unequal weights, the order of the options matters for the probabilities if equal weights are
    not next to each other, because of 1 (C99 asks for that).
47. The cyclical sampler distinguishes an option listed twice and an inner choice from the outer one it is flattened into;
    the other methods do not (T; C100, C101).
48. `[z-a!b]` in a wildcard name is the negated class `[!b]`: the empty range is removed first (T, C106).
49. More options can take prompts away where a choice asks for more options than it has: `{3$$a|b}` gives `a,b`,
    `{3$$a|b|c}` does not (T, C109).
50. `{3$$__w__}` picks at most as many values as `w` has lines, although a line of weight 2 is there twice (T, C110).
51. `write_text` with a text that cannot be encoded empties the file before it raises, while `get_values` still returns
    the old values (T, C112).
