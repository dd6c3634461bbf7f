{"id": "C01", "title": "Combinatorial generation enumerates exactly the template's combinations", "statement": "With the combinatorial sampling method, a template built from literals, sequences, variants and wraps (no explicitly random/cyclic part, no wildcard) yields exactly the list given by the mathematical specification (ordered selections of options for each bound, Cartesian product over a sequence, selections with a repeated text dropped, repeats of a selection dropped), in that order, and then stops; except that a sequence with a token that has no text (and is not itself marked combinatorial) fails with RuntimeError, after exactly the texts that come before it.", "quantifier": "every such template of any size and nesting depth, and every state of the random generator", "why_tests_cant": "tests check a handful of small templates; the product/permutation structure must hold at every nesting depth and arity", "anchors": ["src/dynamicprompts/samplers/combinatorial.py:CombinatorialSampler", "src/dynamicprompts/samplers/combinatorial.py:_combo_to_prompt", "src/dynamicprompts/commands/variant_command.py:VariantCommand.get_value_combinations"]}
{"id": "C02", "title": "A combinatorial variant never repeats a selection", "statement": "The sequence of option-text tuples a combinatorial variant emits has no duplicates, no tuple contains the same text twice, and every tuple's size lies between the clipped bounds; consequently a pick-one variant never emits the same string twice (unless ignore_whitespace is on and makes two of them equal).", "quantifier": "every variant command, context and run prefix, including options that are themselves random, cyclic or wildcards", "why_tests_cant": "duplicates can come from any combination of nested options; a test only sees the few it was written for", "anchors": ["src/dynamicprompts/samplers/combinatorial.py:CombinatorialSampler._get_variant", "src/dynamicprompts/utils.py:dedupe"]}
{"id": "C03", "title": "Combinatorial variants of distinct literals are complete", "statement": "For n pairwise different literal options and bounds lo..hi, the combinatorial sampler emits every ordered selection of k distinct options for every k in lo..min(hi,n), each exactly once; there are n!/(n-k)! of them for each k.", "quantifier": "all n, all lists of distinct literals, all bounds and separators", "why_tests_cant": "exhaustive completeness over all n and k is not a finite check", "anchors": ["src/dynamicprompts/commands/variant_command.py:VariantCommand.get_value_combinations", "src/dynamicprompts/samplers/combinatorial.py:CombinatorialSampler._get_variant"]}
{"id": "C04", "title": "max_prompts only truncates", "statement": "CombinatorialPromptGenerator.generate(t, n) returns at most n prompts, and generate(t, n) is a prefix of generate(t, m) whenever n <= m and both calls start from the same state; it is also a prefix of the list returned without a limit.", "quantifier": "all templates, all n <= m, all worlds (RNG state, wildcard contents)", "why_tests_cant": "must hold for every pair of limits and every template, including failing and infinite ones", "anchors": ["src/dynamicprompts/sampling_context.py:SamplingContext.sample_prompts", "src/dynamicprompts/generators/combinatorial.py:CombinatorialPromptGenerator.generate"]}
{"id": "C05", "title": "Non-finite parts do not multiply combinatorial output", "statement": "In a combinatorial sequence, tokens marked random (~) or cyclical (@) are sampled once per combination of the remaining tokens: the number of prompts equals the product of the sizes of the finite tokens, whatever the random generator does.", "quantifier": "all sequences of finite-fragment tokens and non-finite tokens, every RNG", "why_tests_cant": "the count must hold for every interleaving of finite and non-finite tokens and every random outcome", "anchors": ["src/dynamicprompts/samplers/combinatorial.py:CombinatorialSampler._get_sequence", "src/dynamicprompts/samplers/command_collection.py:CommandCollection"]}
{"id": "C06", "title": "Deterministic templates never consult the random generator", "statement": "If neither the default method nor any part of the template is random, producing prompts leaves the RNG state unchanged and the prompts do not depend on it; repeated generate calls therefore return the same list.", "quantifier": "all wildcard-free templates in a combinatorial or cyclical context with no ~ marker, all RNG states, all numbers of prompts", "why_tests_cant": "absence of a hidden dependency on RNG state cannot be observed by finitely many runs", "anchors": ["src/dynamicprompts/samplers/combinatorial.py", "src/dynamicprompts/samplers/cycle.py", "src/dynamicprompts/samplers/base.py"]}
{"id": "C07", "title": "Every produced prompt belongs to the template's language", "statement": "Whatever sampling method is used, every string produced for a template is derivable from it: literal text verbatim, sequence parts in order, a permitted number of a variant's own options chosen without replacement and joined with its separator, a value of the named wildcard expanded in turn (or the wrapped wildcard name when it has no values), variables replaced by their bound value, wraps as prefix+inner+suffix.", "quantifier": "all templates (including wildcards, variables, wraps, mixed methods), all contexts, all wildcard contents, every RNG and any number of prompts", "why_tests_cant": "random and nested sampling make the reachable outputs unbounded; tests pin the RNG", "anchors": ["src/dynamicprompts/samplers/base.py:Sampler", "src/dynamicprompts/samplers/random.py:RandomSampler", "src/dynamicprompts/samplers/cycle.py:CyclicalSampler", "src/dynamicprompts/samplers/combinatorial.py:CombinatorialSampler", "src/dynamicprompts/sampling_context.py:SamplingContext"]}
{"id": "C08", "title": "The number of chosen options respects the bounds", "statement": "A variant with at least two options and bounds lo-hi joins at least min(lo,n) and at most min(hi,n) options; bounds given in either order or below zero are normalised first.", "quantifier": "all variants, bounds (any integers), samplers, RNG outcomes", "why_tests_cant": "bounds interact with clipping and RNG at every boundary value", "anchors": ["src/dynamicprompts/commands/variant_command.py:VariantCommand.__post_init__", "src/dynamicprompts/commands/variant_command.py:VariantCommand.adjust_range", "src/dynamicprompts/samplers/random.py:RandomSampler._get_variant"]}
{"id": "C09", "title": "Random selection is without replacement", "statement": "Choosing k of n values returns k values that form a sub-multiset of the given values (a single value is returned whatever k is), fails with ValueError if k exceeds n or the weights do not match, succeeds in all other cases with positive weights, and never modifies the caller's lists.", "quantifier": "all value lists (with duplicates), weights, k and every RNG outcome", "why_tests_cant": "the removal logic must be right for every sequence of draws", "anchors": ["src/dynamicprompts/utils.py:choose_without_replacement"]}
{"id": "C10", "title": "An option of weight zero is never drawn", "statement": "When the total weight is positive, a weighted draw never returns an option whose weight is zero, and every option of positive weight is returned for exactly its share of the random numbers. A selection of several never contains an option of weight zero if equal weights stand next to each other; for different options it can contain one exactly if a zero stands between two equal positive weights.", "quantifier": "all weight lists and every random number in [0,1); for multi-draw selections every sequence of draws", "why_tests_cant": "boundary draws (exactly on a cumulative weight) have measure zero in random tests", "anchors": ["src/dynamicprompts/utils.py:choose_without_replacement", "src/dynamicprompts/wildcards/values.py:WildcardValues.get_weighted_random_generator", "src/dynamicprompts/samplers/random.py:RandomSampler._get_variant"]}
{"id": "C11", "title": "Cyclical sampling has a closed form", "statement": "The k-th prompt of a wildcard-free cyclical template is determined by k alone: a literal is constant, a sequence joins the k-th outputs of its parts, and a variant with c selections emits selection k mod c, each of its options being at its own position k div c.", "quantifier": "all wildcard-free templates with valid variants, all k", "why_tests_cant": "requires reasoning about arbitrarily nested stateful generators at arbitrary positions", "anchors": ["src/dynamicprompts/samplers/cycle.py:CyclicalSampler._get_variant", "src/dynamicprompts/samplers/cycle.py:_get_combination_samples", "src/dynamicprompts/utils.py:next_sampler_next_value"]}
{"id": "C12", "title": "Cyclical variants of equal size stay in sync", "statement": "In a cyclical context, two variants of n literal options each, placed in one sequence, always show options with the same index together, and the sequence repeats with period n.", "quantifier": "all n, all literal options, all prompt positions", "why_tests_cant": "sync must hold forever, not for the first few prompts", "anchors": ["src/dynamicprompts/samplers/cycle.py:CyclicalSampler", "src/dynamicprompts/samplers/base.py:Sampler._get_sequence"]}
{"id": "C13", "title": "Random generation returns exactly the requested number of prompts", "statement": "For every template whose variants have options with drawable weights and non-negative bounds, whose wildcards have values and whose variables are defined and not recursive, random (and cyclical) sampling never runs dry and never fails: asking for n prompts returns exactly n, whatever the random generator does. In particular this holds for every template of literals, sequences, wraps and non-empty variants with positive weights.", "quantifier": "all such templates, all n, every RNG", "why_tests_cant": "absence of exhaustion has to hold for every n and RNG outcome", "anchors": ["src/dynamicprompts/samplers/random.py:RandomSampler", "src/dynamicprompts/generators/randomprompt.py:RandomPromptGenerator.generate"]}
{"id": "C14", "title": "Per-prompt seeds make prompts independent of history", "statement": "With seeds=[s1..sn], the i-th prompt of a template that keeps nothing between prompts depends only on the template and s_i, not on the earlier seeds or on any earlier use of the generator. (Immediate variables, weighted wildcards, wildcards with a random name and cyclical parts do keep something, and there it can fail.)", "quantifier": "all templates in the stateless random fragment, all seed lists, all prior histories", "why_tests_cant": "history independence quantifies over all previous calls", "anchors": ["src/dynamicprompts/generators/randomprompt.py:RandomPromptGenerator.generate", "src/dynamicprompts/wildcards/values.py:WildcardValues.get_weighted_random_generator"]}
{"id": "C15", "title": "Immediate variables are sampled once", "statement": "After ${v=!expr} every access to v in that sequence, and in every prompt drawn from the same generator, shows the same text, which is one of expr's possible texts.", "quantifier": "all value expressions, samplers, RNGs, number of accesses and number of prompts", "why_tests_cant": "consistency over all later prompts and random outcomes", "anchors": ["src/dynamicprompts/sampling_context.py:SamplingContext.process_variable_assignment", "src/dynamicprompts/samplers/base.py:Sampler._get_sequence"]}
{"id": "C16", "title": "Assignment, preservation and overwriting of variables", "statement": "Inside a sequence, an access sees the last assignment of that name in the sequence; a ?= assignment takes the value already defined in the surrounding context if there is one and otherwise assigns; names not assigned keep the surrounding value.", "quantifier": "all sequences, all contexts, all names", "why_tests_cant": "depends on the whole history of assignments and nesting", "anchors": ["src/dynamicprompts/sampling_context.py:SamplingContext.process_variable_assignments", "src/dynamicprompts/sampling_context.py:SamplingContext.with_variables"]}
{"id": "C17", "title": "Variable lookup order and undefined variables", "statement": "An access uses the context value if defined, else its default, else the configured unknown value, and otherwise raises KeyError; it never silently produces text. A value that is an empty sequence or an empty variant counts as undefined.", "quantifier": "all contexts, names, defaults and unknown-value settings", "why_tests_cant": "all combinations of definedness and configuration, at any nesting depth", "anchors": ["src/dynamicprompts/samplers/base.py:Sampler._get_variable"]}
{"id": "C18", "title": "Recursive variable definitions are always detected", "statement": "Resolving a variable terminates for every context: any definition chain that reaches a variable already being resolved raises RecursionError, so variable resolution never loops.", "quantifier": "all contexts (any set of mutually referring definitions) and all commands", "why_tests_cant": "termination over all finite definition graphs", "anchors": ["src/dynamicprompts/sampling_context.py:SamplingContext.for_sampling_variable", "src/dynamicprompts/samplers/base.py:Sampler._get_variable"]}
{"id": "C19", "title": "Variable assignments are scoped", "statement": "An assignment or wildcard parameter affects only the sequence or wildcard expansion it belongs to: a sibling or enclosing part samples exactly as if it were not there.", "quantifier": "all templates and contexts", "why_tests_cant": "non-interference is a statement about pairs of runs", "anchors": ["src/dynamicprompts/sampling_context.py:SamplingContext.with_variables", "src/dynamicprompts/samplers/random.py:RandomSampler._get_wildcard"]}
{"id": "C20", "title": "Sampling-method nesting rule", "statement": "A command uses its own sampling method if it has one, except that a finite (combinatorial) command inside a random or cyclical context uses the context's method; hence no combinatorial sampler ever runs below a non-finite one.", "quantifier": "all commands, contexts and nesting depths", "why_tests_cant": "must hold at every depth of every template", "anchors": ["src/dynamicprompts/sampling_context.py:SamplingContext.get_sampler_and_context"]}
{"id": "C21", "title": "ignore_whitespace normal form", "statement": "With ignore_whitespace every produced prompt has no leading or trailing whitespace, no whitespace other than single spaces between words, the same words in the same order, and squashing again changes nothing.", "quantifier": "all templates, samplers, RNGs, all strings", "why_tests_cant": "all strings over all Unicode whitespace", "anchors": ["src/dynamicprompts/utils.py:squash_whitespace", "src/dynamicprompts/sampling_result.py:SamplingResult.whitespace_squashed", "src/dynamicprompts/sampling_context.py:SamplingContext.sample_prompts"]}
{"id": "C22", "title": "Joining results", "statement": "Joining a single result returns it unchanged; joining with an empty separator concatenates; otherwise the parts appear in order separated by the separator with at most one separator removed at each end.", "quantifier": "all lists of texts and separators", "why_tests_cant": "overlaps between texts and separators have many corner cases", "anchors": ["src/dynamicprompts/sampling_result.py:SamplingResult.joined"]}
{"id": "C23", "title": "Wrapping preserves the inner prompt", "statement": "A wrap result is prefix + inner + suffix where wrapper = prefix + marker + suffix at the first (leftmost, maximal) marker; the inner text is verbatim and, if the wrapper has no marker, the result is wrapper + inner.", "quantifier": "all wrapper and inner strings", "why_tests_cant": "marker search over all strings and overlaps of dots and ellipses", "anchors": ["src/dynamicprompts/commands/wrap_command.py:split_wrapper_string", "src/dynamicprompts/sampling_result.py:SamplingResult.as_wrapper"]}
{"id": "C24", "title": "dedupe keeps first occurrences", "statement": "dedupe returns a subsequence with pairwise different keys, containing every key of the input, in order of first occurrence, and is idempotent.", "quantifier": "all lists and key functions", "why_tests_cant": "all lists", "anchors": ["src/dynamicprompts/utils.py:dedupe"]}
{"id": "C25", "title": "Wildcard names are canonicalised and cannot escape the root", "statement": "clean_wildcard either rejects the name or returns one without '..', backslashes, doubled, leading or trailing slashes; which slash or backslash spelling was used makes no difference; names containing '..' after normalisation match no collection.", "quantifier": "all strings and wrap strings", "why_tests_cant": "security property over all strings", "anchors": ["src/dynamicprompts/wildcards/utils.py:clean_wildcard", "src/dynamicprompts/wildcards/wildcard_manager.py:WildcardManager.match_collections"]}
{"id": "C26", "title": "Wrapping and cleaning wildcard names are inverse", "statement": "to_wildcard is idempotent, its result is always recognised by is_wildcard, a name that is already wrapped is returned unchanged, any other name is wrapped on both sides, and cleaning to_wildcard(name) gives the same as cleaning name, for every name.", "quantifier": "all names and wrap strings (including overlapping ones)", "why_tests_cant": "overlap of name and wrap characters", "anchors": ["src/dynamicprompts/wildcards/wildcard_manager.py:WildcardManager.to_wildcard", "src/dynamicprompts/wildcards/wildcard_manager.py:WildcardManager.is_wildcard", "src/dynamicprompts/wildcards/utils.py:clean_wildcard"]}
{"id": "C27", "title": "The values cache is transparent", "statement": "As long as the files do not change and shuffling stays off, every get_values call in any history of get_values, clear_cache, setter, get_collection_names and get_file calls and reads of collection objects returns or raises what a brand-new manager with the current settings would; whatever happened before the last clear_cache or sort/dedup change does not matter. With shuffling the same values are returned in some order.", "quantifier": "all histories, all pasts before the last clearing, all files, root maps and wildcards", "why_tests_cant": "quantifies over all operation histories, including cache evictions", "anchors": ["src/dynamicprompts/wildcards/wildcard_manager.py:WildcardManager._get_values", "src/dynamicprompts/wildcards/wildcard_manager.py:WildcardManager.clear_cache"]}
{"id": "C28", "title": "The values cache is bounded", "statement": "After any history of operations the values cache holds at most 101 entries and at most one entry per wildcard.", "quantifier": "all operation histories", "why_tests_cant": "unbounded histories", "anchors": ["src/dynamicprompts/wildcards/wildcard_manager.py:WildcardManager._get_values"]}
{"id": "C29", "title": "get_values returns the union of the matching collections", "statement": "With dedup on, the result has no duplicate items and exactly the items of the matching collections, first occurrences first; with sort on it is ordered by text, items with equal text in the order found; with dedup off multiplicities are preserved; it succeeds whenever the files can be read. A manager made without options sorts and leaves out duplicates.", "quantifier": "all trees, wildcards and settings", "why_tests_cant": "all collections of values", "anchors": ["src/dynamicprompts/wildcards/wildcard_manager.py:WildcardManager._get_values"]}
{"id": "C30", "title": "Glob matching of wildcard names", "statement": "A pattern without special characters matches only the identical name; '*' matches any text (including '/'), '?' exactly one character, '[abx-z]' one of the listed characters and ranges, '[!abx-z]' one character that is not listed, a '[' that is never closed itself; 'prefix*' matches exactly the names with that prefix, '*suffix' those with that suffix.", "quantifier": "all names and patterns", "why_tests_cant": "all strings", "anchors": ["src/dynamicprompts/wildcards/tree/tree.py:WildcardTree.match_collections"]}
{"id": "C31", "title": "Recursive fallback only when nothing matched", "statement": "If the pattern itself yields values they are returned alone; only otherwise (and only if it does not start with **) are collections at any depth whose path ends with it searched. A name given with the wrap on both sides is looked up as without it, but the collections then searched at any depth are those whose path ends with the wrap and the name.", "quantifier": "all trees and patterns", "why_tests_cant": "all trees", "anchors": ["src/dynamicprompts/wildcards/wildcard_manager.py:WildcardManager._get_values"]}
{"id": "C32", "title": "Text wildcard files", "statement": "The values of a text file are exactly its lines, stripped, in order, without blank lines and lines starting with #.", "quantifier": "all file contents", "why_tests_cant": "all strings, all whitespace and line-ending combinations", "anchors": ["src/dynamicprompts/wildcards/collection/text_file.py:WildcardTextFile.get_values", "src/dynamicprompts/utils.py:is_empty_line"]}
{"id": "C33", "title": "Text collections read their own writes", "statement": "In any history of write_text and get_values on a collection, get_values returns the parse of the last written contents.", "quantifier": "all histories of reads and writes through the collection", "why_tests_cant": "unbounded histories of cache fills and invalidations", "anchors": ["src/dynamicprompts/wildcards/collection/text_file.py:WildcardTextFile"]}
{"id": "C34", "title": "The wildcard tree agrees with its name map", "statement": "The tree built from a map of clean names contains exactly the map's collections, each reachable under exactly its name: walking the tree lists the same (name, collection) pairs as the map.", "quantifier": "all maps of slash-separated names", "why_tests_cant": "all tree shapes", "anchors": ["src/dynamicprompts/wildcards/tree/tree.py:WildcardTree.from_map", "src/dynamicprompts/wildcards/tree/node.py:WildcardTreeNode.walk_items"]}
{"id": "C35", "title": "What a manager is made from", "statement": "When several roots, or several items of a root, provide the same qualified name the last one wins; every name provided by some item of some root is present, and no other; a collection k of a root p is called p/k. An item that is a dictionary provides its keys, one that is the path of a directory what the files in it provide, and the path of a file or of nothing provides no name. WildcardManager(path) lists exactly the names of the directory, WildcardManager() lists no name and has no values for any wildcard however it is used, and a path together with a non-empty root map raises ValueError.", "quantifier": "all arguments of the constructor, root maps, contents of directories", "why_tests_cant": "all combinations of roots and files", "anchors": ["src/dynamicprompts/wildcards/wildcard_manager.py:WildcardManager.__init__", "src/dynamicprompts/wildcards/tree/build.py:build_tree_from_root_map", "src/dynamicprompts/wildcards/tree/build.py:_mappingify_item", "src/dynamicprompts/wildcards/utils.py:combine_name_parts"]}
{"id": "C36", "title": "Structured wildcard files", "statement": "Every list (or non-empty string) reachable through string keys of a JSON/YAML mapping becomes one collection named by the slash-joined key path, in document order; a list is skipped exactly if one of its entries has a weight that is not a number; unsupported values and skipped lists contribute nothing and never prevent other keys from loading.", "quantifier": "all nested mappings", "why_tests_cant": "all nesting shapes and unsupported values", "anchors": ["src/dynamicprompts/wildcards/collection/structured.py:_parse_structured_file_dict", "src/dynamicprompts/wildcards/collection/structured.py:_parse_structured_file_list"]}
{"id": "C37", "title": "Weights are honoured when iterating wildcard values", "statement": "Deterministic iteration yields each value floor(weight) times consecutively in item order; the cumulative weights are non-decreasing for non-negative weights and end with the total.", "quantifier": "all item lists and weights", "why_tests_cant": "all weights", "anchors": ["src/dynamicprompts/wildcards/values.py:WildcardValues.iterate_string_values_weighted", "src/dynamicprompts/wildcards/values.py:WildcardValues.cum_weight_values"]}
{"id": "C38", "title": "Shuffling only permutes", "statement": "A shuffled collection contains the same items with the same multiplicities, for every random generator, and the original is unchanged.", "quantifier": "all item lists and RNGs", "why_tests_cant": "all RNG outcomes", "anchors": ["src/dynamicprompts/wildcards/values.py:WildcardValues.shuffled"]}
{"id": "C39", "title": "A missing wildcard is echoed", "statement": "A wildcard given by a plain name and without values yields its wrapped name, forever, in every sampling method; no other text is produced and no error is raised.", "quantifier": "all wildcard names, methods, any number of prompts", "why_tests_cant": "forever", "anchors": ["src/dynamicprompts/samplers/utils.py:get_wildcard_not_found_fallback"]}
{"id": "C40", "title": "Seed arguments of generate", "statement": "generate(seeds=...) succeeds only if one seed or exactly num_images seeds are given: a single seed (int or one-element list) is used for every prompt, the RNG is re-seeded immediately before each prompt, and another number of seeds raises ValueError before anything is sampled. A seed argument that is false in Python (0, an empty list) is the same as no seeds. With an empty template a seeded call raises StopIteration.", "quantifier": "all num_images, seed lists and templates", "why_tests_cant": "all counts", "anchors": ["src/dynamicprompts/generators/randomprompt.py:RandomPromptGenerator.generate"]}
{"id": "C41", "title": "Batched generation concatenates batches", "statement": "With b batches the result is the concatenation of b consecutive results of the inner generator for the same template and limit; for a stateless inner generator this is the inner result repeated b times.", "quantifier": "all inner generators, templates, b", "why_tests_cant": "all b and inner behaviours", "anchors": ["src/dynamicprompts/generators/batched_combinatorial.py:BatchedCombinatorialPromptGenerator.generate"]}
{"id": "C42", "title": "Jinja prompt collection", "statement": "The Jinja generator returns the prompt blocks in render order if any block was rendered and the rendered templates otherwise, never more than num_prompts when limited, squashed when asked; a syntax error becomes GeneratorException and other rendering errors pass; permutations(items, lo, hi) lists exactly the ordered selections of each size, smaller sizes first, lexicographically by position; weighted_choice returns only items of positive weight; wildcard(name) and combinatorial_sample(prompt) give the first 1000 prompts of combinatorial sampling, random_sample(prompt) the first of random sampling, StopIteration if there is none.", "quantifier": "all render outcomes, limits, items", "why_tests_cant": "all sequences of blocks", "anchors": ["src/dynamicprompts/generators/jinjagenerator.py:JinjaGenerator.generate", "src/dynamicprompts/jinja_extensions.py:permutation", "src/dynamicprompts/jinja_extensions.py:PromptExtension._prompt"]}
{"id": "C43", "title": "Magic prompt blocklist retries", "statement": "Regeneration keeps the number and order of prompts, never touches a prompt that is not blocked, regenerates each blocked one from its own original prompt, calls the model at most max_attempts times more, and if it stops early no returned prompt is blocked.", "quantifier": "all prompt lists, blocklists, model behaviours, attempt limits", "why_tests_cant": "model outputs are arbitrary", "anchors": ["src/dynamicprompts/generators/magicprompt.py:MagicPromptGenerator._regenerate_blocked_prompts"]}
{"id": "C44", "title": "Magic prompt keeps the original prompt", "statement": "If the model's output extends the original prompt, the cleaned result starts with the original prompt verbatim followed by a space and a text without braces; otherwise the whole result has no braces. A brace in the added part has exactly the effect of the parenthesis. If the added part has no exclamation marks, cleaning removes what is outside its first and last word character and otherwise changes only white space, underscores and the separators , ; . - no other character is lost, added or moved - and leaves no white space inside next to a parenthesis. In a comma-separated list of phrases each phrase with n exclamation marks becomes (phrase:weight) with the weight for n marks and the others stay, provided no marked phrase is the end of another one with at least as many marks; marks after the last phrase are lost. At any place of the added text, a run of the separators , ; . with white space around it, before a letter or an opening parenthesis, counts as a comma and a space; white space around a hyphen between word characters goes; underscores between white space count as a space; two commas with only white space between and after them count as one.", "quantifier": "all original prompts and model outputs", "why_tests_cant": "all strings", "anchors": ["src/dynamicprompts/generators/magicprompt.py:clean_up_magic_prompt"]}
{"id": "C45", "title": "Magic prompt model switching", "statement": "After any history of constructions and set_model calls, the pipeline of an instance is the one loaded at the beginning of the run of requests for the model name it was last served with, none if that load failed; a model is loaded exactly when the requested name changes to one that can be loaded; a request raises exactly when the name changes to one that cannot be loaded.", "quantifier": "all histories of constructions and model switches, including failed loads", "why_tests_cant": "histories and crash points", "anchors": ["src/dynamicprompts/generators/magicprompt.py:MagicPromptGenerator.set_model", "src/dynamicprompts/generators/magicprompt.py:MagicPromptGenerator._load_pipeline"]}
{"id": "C46", "title": "Attention generator", "statement": "Every prompt of the inner generator yields exactly one prompt, which is either unchanged (no keyword found) or has every occurrence of one chosen keyword replaced by (keyword:weight); removing the additions gives back the inner prompt. The weight is a multiple of 0.01 at most 0.005 outside the interval between the two limits, and inside it if the limits are multiples of 0.01. Keywords found without the language model are non-empty parts of the prompt without any of , ; : . ? ! ( ), and are neither numbers nor only punctuation. They are exactly the parts of the prompt between these characters, in order, without the white space around them, as far as they are neither empty nor numbers nor only punctuation.", "quantifier": "all prompts, keyword lists, RNG outcomes", "why_tests_cant": "all strings", "anchors": ["src/dynamicprompts/generators/attentiongenerator.py:AttentionGenerator._add_emphasis", "src/dynamicprompts/generators/attentiongenerator.py:cheap_chunker"]}
{"id": "C47", "title": "Feeling lucky failure behaviour", "statement": "Whatever the search service returns or raises, once the inner generator has given a query, generate either returns exactly num_prompts prompts taken from the service's images for that query or raises GeneratorException; a blank query is replaced by a number. Exceptions of the inner generator are passed on, and IndexError is raised if it gives no prompt.", "quantifier": "all service behaviours, queries, counts, RNGs", "why_tests_cant": "arbitrary service failures", "anchors": ["src/dynamicprompts/generators/feelinglucky.py:FeelingLuckyGenerator.generate"]}
{"id": "C48", "title": "Plain text parses to itself", "statement": "A template without any special character sequence parses to one literal with exactly that text, for all delimiters, so random and cyclical sampling return it verbatim as often as asked for and combinatorial sampling returns it once.", "quantifier": "all strings without special characters", "why_tests_cant": "all strings incl. all whitespace", "anchors": ["src/dynamicprompts/parser/parse.py:parse", "src/dynamicprompts/parser/parse.py:_configure_literal_sequence"]}
{"id": "C49", "title": "Parsing inverts printing", "statement": "Parsing inverts printing: whatever is written unambiguously in the template language (plain text, comments, variants with methods, bounds, separators and weights, wildcards with paths, methods and parameters, variables with defaults, assignments, wraps, nested to any depth, with optional white space and comments) is parsed as the command it stands for; so no text stands for two commands.", "quantifier": "all templates written in the default syntax without tabs, any nesting depth, comments anywhere", "why_tests_cant": "all trees", "anchors": ["src/dynamicprompts/parser/parse.py:create_parser", "src/dynamicprompts/parser/parse.py:_parse_variant_command"]}
{"id": "C50", "title": "Parsed bounds", "statement": "For {lo-hi$$...}, {n$$...}, {-hi$$...}, {lo-$$...} the parsed variant has the stated bounds, with 1 and the number of options as defaults, always normalised to 0 <= min <= max.", "quantifier": "all numerals and option lists", "why_tests_cant": "all numerals", "anchors": ["src/dynamicprompts/parser/parse.py:_parse_bound_expr", "src/dynamicprompts/parser/parse.py:_configure_range"]}
{"id": "C51", "title": "Combinatorial enumeration with wildcards and variables", "statement": "With the combinatorial method, a template that also contains wildcards with values, variables and assignments lists exactly: for a wildcard the texts of its values one after the other, for a variable access the texts of the bound command, for an immediate assignment the binding to the first text, for a sequence all combinations; and then stops.", "quantifier": "all templates of these kinds at any nesting depth, all wildcard managers that give the same answer each time, every random generator", "why_tests_cant": "the enumeration must be exact at every nesting of wildcard values inside templates inside wildcard values", "anchors": ["src/dynamicprompts/samplers/combinatorial.py:CombinatorialSampler", "src/dynamicprompts/samplers/utils.py:wildcard_to_variant", "src/dynamicprompts/sampling_context.py:SamplingContext.process_variable_assignments"]}
{"id": "C52", "title": "Names of the files in a wildcard directory", "statement": "Loading a directory looks at exactly the files in it and in its subdirectories at any depth, except below directories whose name starts with a dot; a name is present exactly if one of these files provides it; a .txt file provides one collection, named by its path below the directory without the suffix, also if it cannot be opened; files with other suffixes than .txt, .json and .yaml provide none.", "quantifier": "all directory trees, file names and contents", "why_tests_cant": "Directory trees can be nested to any depth and contain any names; tests check a handful of fixture files.", "anchors": ["src/dynamicprompts/wildcards/tree/build.py:build_wildcard_map", "src/dynamicprompts/wildcards/utils.py", "src/dynamicprompts/wildcards/collection/text_file.py"]}
{"id": "C53", "title": "Names of the collections in structured files of a directory", "statement": "A JSON or YAML file in a subdirectory gives the collections of its document, each named by the subdirectory path, followed by the key path of the document; of the last directory of the path a suffix (as in v1.5) is dropped. A structured file that cannot be opened gives none.", "quantifier": "all directory trees, file names and documents", "why_tests_cant": "The property ranges over every directory path, including names with dots, and every nesting of keys.", "anchors": ["src/dynamicprompts/wildcards/tree/build.py:get_wildcards_from_path", "src/dynamicprompts/wildcards/collection/structured.py"]}
{"id": "C54", "title": "generate returns what the sampling context produces", "statement": "Without seeds, the random and the combinatorial generator return exactly the list of prompts that iterating the sampling context up to the requested number produces, and raise exactly the exception that iteration raises; a negative number raises ValueError for every non-empty template that can be parsed, and an empty template gives no prompts. Without a limit (max_prompts=None) the combinatorial generator returns a list exactly if the iteration ends after these prompts. The dummy generator returns the template verbatim, as often as asked.", "quantifier": "all templates, counts, worlds, random generators", "why_tests_cant": "Holds for every template and every outcome of the iteration, including exceptions after some prompts.", "anchors": ["src/dynamicprompts/generators/randomprompt.py:RandomPromptGenerator.generate", "src/dynamicprompts/generators/combinatorial.py:CombinatorialPromptGenerator.generate", "src/dynamicprompts/sampling_context.py:SamplingContext.sample_prompts"]}
{"id": "C55", "title": "Random sampling can produce every prompt", "statement": "For every text that a template describes (any permitted number of options of a choice in any order, any value of positive weight of a wildcard, any text of a variable, at any nesting), some outcomes of the random draws make random sampling return exactly that text. For templates of literals, sequences, choices and wraps with positive weights the returnable texts are exactly the described ones, and if the template keeps nothing between prompts any list of described texts can come out, in any order and with repetitions.", "quantifier": "all templates without cyclical parts, all wildcard managers that always give the same answer, all texts", "why_tests_cant": "A test can only observe that some run produced a text; that no described text is impossible is a statement about all texts and all random outcomes.", "anchors": ["src/dynamicprompts/samplers/random.py:RandomSampler", "src/dynamicprompts/utils.py:choose_without_replacement", "src/dynamicprompts/wildcards/values.py:WildcardValues.get_weighted_random_generator"]}
{"id": "C56", "title": "Successive wildcard values use successive draws", "statement": "When a wildcard is sampled repeatedly, prompt j is the value selected by the j-th random number: with different weights the value whose weight interval contains it, with equal weights the value with that index. No draw is used twice or skipped.", "quantifier": "all value lists with literal values and non-negative weights, all numbers of prompts, all sequences of random numbers", "why_tests_cant": "Concerns every sequence of random numbers and every number of prompts, across the internal batches of ten.", "anchors": ["src/dynamicprompts/wildcards/values.py:WildcardValues.get_weighted_random_generator", "src/dynamicprompts/samplers/random.py:RandomSampler._get_wildcard"]}
{"id": "C57", "title": "Parsing always ends", "statement": "For every text and every parser configuration with non-empty opening delimiters, parsing ends: no nesting deeper than the length of the text is ever explored, and the outcome is a command, a ParseException or an AttributeError.", "quantifier": "all texts, all parser configurations", "why_tests_cant": "the grammar is recursive and repetition must consume text in every case", "anchors": ["src/dynamicprompts/parser/parse.py:create_parser", "src/dynamicprompts/parser/parse.py:parse"]}
{"id": "C58", "title": "Shape of parsed templates", "statement": "Whatever the text and delimiters, a parsed template has only non-empty literals, variants with at least one option, 0 <= min <= max bounds and a printable separator, flat sequences that never have exactly one part, assignments only at the top level, wildcard parameters with distinct names, and path variables with a text default.", "quantifier": "all texts, all parser configurations", "why_tests_cant": "all texts", "anchors": ["src/dynamicprompts/parser/parse.py:_parse_variant_command", "src/dynamicprompts/parser/parse.py:_parse_sequence_or_single_command", "src/dynamicprompts/parser/parse.py:_parse_wildcard_variable_access_command"]}
{"id": "C59", "title": "Line comments", "statement": "In plain text everything from # to the end of the line is ignored; the texts around comments are joined by single spaces, also with comments at the very beginning or end.", "quantifier": "any number of comments and any texts between them", "why_tests_cant": "any number of comments", "anchors": ["src/dynamicprompts/parser/parse.py:create_parser"]}
{"id": "C60", "title": "Sampling a text is sampling its meaning", "statement": "Sampling the text of a template gives the same prompts, errors and end as sampling the command it stands for (unless the template consists of comments only), and every prompt belongs to the language of that command.", "quantifier": "all unambiguous templates, samplers, random sources, contexts, limits", "why_tests_cant": "all templates and random sources", "anchors": ["src/dynamicprompts/parser/parse.py:parse", "src/dynamicprompts/sampling_context.py:sample_prompts"]}
{"id": "C61", "title": "Tabs", "statement": "A tab in a template is read as the spaces up to the next column that is a multiple of eight.", "quantifier": "all texts", "why_tests_cant": "all texts", "anchors": ["src/dynamicprompts/parser/parse.py:parse"]}
{"id": "C62", "title": "The parser cache is invisible", "statement": "In every history of parse calls with any configurations, interleaved with configurations being garbage collected, each call gives what a fresh parser for its configuration gives.", "quantifier": "all histories", "why_tests_cant": "all histories", "anchors": ["src/dynamicprompts/parser/parse.py:get_cached_parser"]}
{"id": "C63", "title": "Prompts depend on the wildcard files, not on what the manager did before", "statement": "After its cache was cleared (or for a new manager), with shuffling off and unchanged files, a sampling context produces for every template exactly the prompts (and the same end or exception) that it would produce if each wildcard stood for a fixed list of values determined by the files and the sort and dedup settings alone. Lookups, other prompts sampled with the same manager and changes of settings in between make no difference; two managers with the same files, settings and random state are interchangeable. If no directory lists a name twice and all files can be opened, no lookup fails.", "quantifier": "all file systems, root maps, settings, histories of manager operations and of sampling, templates (text or command), contexts, methods, random generators, numbers of prompts; also generators that were left half-way", "why_tests_cant": "caches (of values, of the tree, of each file) are filled in an order that depends on the history and on random choices inside templates; a test fixes one history", "anchors": ["src/dynamicprompts/sampling_context.py: SamplingContext.sample_prompts", "src/dynamicprompts/wildcards/wildcard_manager.py: WildcardManager.get_values, clear_cache, tree", "src/dynamicprompts/samplers/*.py: _get_wildcard"]}
{"id": "C64", "title": "From template text and files to prompts", "statement": "Every prompt sampled from the text of an unambiguous template can be derived from the command the text stands for, with each wildcard standing for the values found in the files, arranged as the settings say; whatever the method, the random numbers and the history of the manager, and whether or not it shuffles.", "quantifier": "all unambiguous template texts, file systems, histories, contexts, random outcomes, numbers of prompts", "why_tests_cant": "connects parser, samplers and file reading for all inputs at once; unit tests check each with mocks of the others", "anchors": ["src/dynamicprompts/parser/parse.py: parse", "src/dynamicprompts/sampling_context.py: sample_prompts", "src/dynamicprompts/wildcards/wildcard_manager.py: get_values"]}
{"id": "C65", "title": "Seeds reproduce prompts across managers and processes", "statement": "For a template that keeps nothing between prompts, two calls of generate with seeds, made with any two managers of the same configuration, files and settings after any histories, return the same prompt wherever the same seed is used.", "quantifier": "all memoryless templates, seed lists, positions in them, file systems, histories of both managers and both random generators", "why_tests_cant": "two arbitrary histories are compared; caches must never leak into the number of random draws", "anchors": ["src/dynamicprompts/generators/randomprompt.py: RandomPromptGenerator.generate", "src/dynamicprompts/wildcards/wildcard_manager.py"]}
{"id": "C66", "title": "From template text and files to the complete list of combinatorial prompts", "statement": "The text of a template, the contents of the wildcard files and the settings together determine one list of prompts. In combinatorial mode, generation from the text with a wildcard manager of any history yields exactly this list, in order, and then stops. For templates without wildcards and variables it is the list of C01.", "quantifier": "all unambiguous templates without random or cyclical parts whose wildcards have values (templates themselves, to any depth), all directories, settings, variables, histories of the manager, limits", "why_tests_cant": "templates, files, values and histories are unbounded, and the list must be complete and in order for each combination of them", "anchors": ["src/dynamicprompts/samplers/combinatorial.py: CombinatorialSampler", "src/dynamicprompts/parser/parse.py: parse", "src/dynamicprompts/wildcards/wildcard_manager.py: WildcardManager.get_values"]}
{"id": "C67", "title": "Comments do not matter", "statement": "Line comments (# and //) and block comments (/* */) have no effect: comments before a template do not change how it is parsed, whatever the template is, valid or not; templates that differ only in comments between and inside their parts, and in the optional white space inside parts, are parsed alike and give the same prompts; a comment between two texts counts as one space.", "quantifier": "all texts (comments before); all unambiguous templates with any number of comments anywhere, samplers, random sources, contexts, limits", "why_tests_cant": "comments of any content in any place of any template", "anchors": ["src/dynamicprompts/parser/parse.py:create_parser", "src/dynamicprompts/parser/parse.py:parse"]}
{"id": "C68", "title": "Other marks for variants, wildcards, variables and wraps", "statement": "The marks that begin and end the parts of a template can be configured. For every set of marks that can be told apart, a template written unambiguously with them is parsed as what it stands for, so the same template written with two sets of marks gives the same command, no text has two readings, and sampling the text is sampling that command.", "quantifier": "all usable sets of marks, all unambiguous templates to any depth, samplers, random sources, contexts, limits", "why_tests_cant": "marks, templates and their combinations are unbounded; tests try a few marks on a few templates", "anchors": ["src/dynamicprompts/parser/config.py: ParserConfig", "src/dynamicprompts/parser/parse.py: create_parser", "src/dynamicprompts/parser/parse.py: parse"]}
{"id": "C69", "title": "Marks that disable assignments, defaults and wraps", "statement": "If the marks that end variables and wraps begin with a character that texts inside parts may contain (which is so when only the marks of variants are changed, as in the documentation), no text whatever is parsed as a template with an assignment, a default of a variable or a wrap: texts that begin with an assignment or a wrap are rejected.", "quantifier": "all usable sets of marks with such ends, all texts", "why_tests_cant": "a statement about every text, also the ones nobody thought of; tests show at most some texts that fail", "anchors": ["src/dynamicprompts/parser/parse.py: _configure_literal_sequence", "src/dynamicprompts/parser/parse.py: _configure_variable_assignment", "src/dynamicprompts/parser/parse.py: _configure_wrap_command", "src/dynamicprompts/parser/config.py: ParserConfig"]}
{"id": "C70", "title": "Probabilities of random prompts", "statement": "If successive draws of the random source are uniform and independent, random sampling of a template returns each text with the probability the template prescribes: the number of options a choice picks is uniform between its bounds (as far as there are that many options), options are picked one after the other in proportion to the weights of those not yet picked, a wildcard returns its values in proportion to their weights, different parts are independent, and all uses of an immediately evaluated variable share one outcome. The chances are not negative and add up to one. Where more than one option may be picked, this holds for choices with different options, positive weights, and equal weights next to each other; otherwise the code mixes up the weights of the remaining options. Fair sources exist.", "quantifier": "all templates as described, with nested parts, wildcards and variables, all weights and bounds, all sources of random numbers that are fair; from text and files too", "why_tests_cant": "probabilities are about all outcomes of all draws; tests with a seeded or mocked generator see single outcomes, statistical tests only approximate", "anchors": ["src/dynamicprompts/samplers/random.py: RandomSampler", "src/dynamicprompts/utils.py: choose_without_replacement", "src/dynamicprompts/samplers/base.py: Sampler", "src/dynamicprompts/sampling_context.py: SamplingContext.sample_prompts"]}
{"id": "C71", "title": "Successive random prompts are independent", "statement": "For templates whose generator keeps nothing between prompts, the prompts of one run of random sampling are independent and identically distributed: with a fair source of random numbers, the probability that the first prompts are a given list of texts is the product of the texts' probabilities.", "quantifier": "all such templates (memoryless, as in C14) with a distribution as in C70, all numbers of prompts, all lists of texts, all fair sources", "why_tests_cant": "independence is a statement about all sequences of draws and all numbers of prompts", "anchors": ["src/dynamicprompts/samplers/random.py: RandomSampler", "src/dynamicprompts/sampling_context.py: SamplingContext.sample_prompts"]}
{"id": "C72", "title": "Generators that share a wildcard manager do not influence each other", "statement": "In a process with one wildcard manager and several random generator objects, everything the program sees of the contexts, generators and open iterators that use one random object is what it would see if nothing else happened in the process: calls made through other random objects and read-only calls to the manager, in any interleaving, change neither prompts nor exceptions. In particular two programs that seed an object and then use it in the same way see the same prompts, whatever else they do. A generator object in a process answers what a generator with its own settings (parser, ignore_whitespace, sampling method) answers on the manager and its random object, and changes nothing else.", "quantifier": "all file trees, settings of sorting and deduplication (shuffling off), random sources and seeds, all programs (finite sequences of calls of generate, sample_prompts, next, seed and read-only manager calls in any interleaving), any number of random objects and open iterators", "why_tests_cant": "the property ranges over all interleavings of all calls, and the shared cache is changed by almost every call", "anchors": ["src/dynamicprompts/sampling_context.py: SamplingContext.sample_prompts", "src/dynamicprompts/generators/randomprompt.py: RandomPromptGenerator", "src/dynamicprompts/generators/combinatorial.py: CombinatorialPromptGenerator", "src/dynamicprompts/wildcards/wildcard_manager.py: WildcardManager.get_values"]}
{"id": "C73", "title": "Open iterators without randomness are independent of everything else", "statement": "An open iterator over the prompts of a template that uses no random method yields, call by call of next, exactly the prompts that sampling the template alone gives, in the same order and with the same end, no matter how its calls are interleaved with other iterators (also of the same context and random object), with generators and with read-only manager calls.", "quantifier": "all templates and contexts without a random method, all files and settings (shuffling off), all programs around the iterator, all random sources and states", "why_tests_cant": "all interleavings of all programs, and all templates, are quantified", "anchors": ["src/dynamicprompts/sampling_context.py: SamplingContext.sample_prompts", "src/dynamicprompts/samplers/combinatorial.py: CombinatorialSampler", "src/dynamicprompts/samplers/cycle.py: CyclicalSampler", "src/dynamicprompts/samplers/command_collection.py: CommandCollection"]}
{"id": "C74", "title": "A sampling method is used only if its symbol was written", "statement": "If neither the text of a template nor any wildcard value contains the symbol of a sampling method (~ random, ! combinatorial, @ cyclical), then no command that can ever be reached while sampling the template (tokens, options, parsed wildcard values, parsed template paths, variables, ...) asks for that method. In particular without ~ and with a combinatorial or cyclical default, prompts do not depend on seeds, random states or history, and iterators are not disturbed.", "quantifier": "all templates, files, wildcard values and parser configurations, all methods, all commands reachable from the template", "why_tests_cant": "wildcard values are parsed as templates when sampled, to any depth; all texts and all reachable commands are quantified", "anchors": ["src/dynamicprompts/parser/parse.py: sampler_lookup", "src/dynamicprompts/parser/parse.py: parse", "src/dynamicprompts/sampling_context.py: SamplingContext.get_sampler_and_context"]}
{"id": "C75", "title": "No character comes from nowhere", "statement": "Every character of every prompt is a space, a comma, a character of the wildcard mark, a character of the template, a character of a wildcard value, or (if there are any) a character of a variable of the context or of the value for unknown variables.", "quantifier": "all templates, parser configurations, wildcard values, contexts, methods, random states, numbers of prompts", "why_tests_cant": "all templates and executions are quantified", "anchors": ["src/dynamicprompts/sampling_context.py: SamplingContext.sample_prompts", "src/dynamicprompts/parser/parse.py: parse", "src/dynamicprompts/samplers/base.py: Sampler"]}
{"id": "C76", "title": "Only texts of the template grammar are accepted", "statement": "If parsing a text succeeds with some command, for any configured marks, then the text (tabs expanded) can be read as exactly that command with the template grammar, from its first character to its last: every part of it is plain text without special characters, a variant, wildcard, variable or wrap with its closing mark, or a comment. In particular a template (without comments and wildcard parameters) in which some brace is never closed is always rejected, not accepted as plain text.", "quantifier": "every text, every configuration of marks, every classification of non-ASCII letters and digits, every command returned", "why_tests_cant": "There are infinitely many malformed texts; tests reject a handful and cannot show that no malformed text slips through as a literal.", "anchors": ["src/dynamicprompts/parser/parse.py:parse", "src/dynamicprompts/parser/parse.py:create_parser", "src/dynamicprompts/parser/config.py:ParserConfig"]}
{"id": "C77", "title": "Every exception has its cause in the template", "statement": "If sampling a prompt raises an exception, after however many prompts, then something in the template, the variables of the context, the wildcards it can reach or the settings explains it: an unparseable text (template, wildcard name or value), an exception of the wildcard manager, an undefined or empty variable without value for unknown variables (KeyError naming it), a variable whose evaluation may need itself (RecursionError naming it), an assignment that is not part of a sequence or a wrap together with the cyclical method (NotImplementedError), a random variant or wildcard whose weights do not permit enough draws (ValueError), or something from which no text can be drawn where one is needed (RuntimeError). Where none of these causes exists, no exception is raised.", "quantifier": "all templates (texts or commands), parsers, wildcard managers, random sources, variables, default methods, settings and numbers of prompts", "why_tests_cant": "the absence of other exceptions, at any later prompt and for any random choices, cannot be observed by running some templates", "anchors": ["src/dynamicprompts/sampling_context.py: SamplingContext", "src/dynamicprompts/samplers/*.py", "src/dynamicprompts/sampling_result.py", "src/dynamicprompts/utils.py: choose_without_replacement"]}
{"id": "C78", "title": "Exceptions of templates given as texts", "statement": "Sampling a text raises only ParseException, AttributeError, KeyError, RecursionError, NotImplementedError, ValueError and RuntimeError, unless the wildcard manager raises something else, which it does not for files that can be opened, in directories without duplicate names, whatever the manager did before. NotImplementedError means that one of the texts involved is nothing but an assignment, or that a wrap is sampled cyclically. RuntimeError means that a wildcard has only values of weight below 1 (or none, as only option of a variant; or an empty one, where all values are listed), that at least two options are to be combined, or that a wrap has an empty part.", "quantifier": "all texts, usable parser marks, wildcard files, histories of the manager, methods, random sources, numbers of prompts", "why_tests_cant": "all texts and all wildcard contents, at every prompt of an iteration", "anchors": ["src/dynamicprompts/parser/parse.py: parse", "src/dynamicprompts/sampling_context.py", "src/dynamicprompts/samplers/*.py", "src/dynamicprompts/wildcards/wildcard_manager.py: get_values"]}
{"id": "C79", "title": "Every hang has its cause in the template", "statement": "If asking for prompts never answers, whatever time it is given (no prompt, no end, no exception), then something in the template, the variables, the wildcards it can reach or the settings explains it: an endless chain of commands each of which needs the next, in which no variable occurs twice; a cyclical variant of which no selection is permitted; a wildcard manager that does not answer; a random wildcard that has an empty value, or together with which something has no text where one is needed; or, in a combinatorial template, something with a random or cyclical method where something finite is expected, or a wildcard without values. Where none of these causes exists, every request for any number of prompts is answered. For templates, variables and values given as texts, with finitely many values (as read from files), an endless chain means a wildcard that may need itself. A randomly sampled template without wildcards always answers.", "quantifier": "all templates, parsers, wildcard managers, histories of the manager, random sources, variables, default methods, numbers of prompts", "why_tests_cant": "a test cannot observe that a call never returns, nor that all calls return, for all templates, wildcard contents and random choices", "anchors": ["src/dynamicprompts/samplers/*.py", "src/dynamicprompts/sampling_context.py", "src/dynamicprompts/samplers/utils.py: get_wildcard_not_found_fallback", "src/dynamicprompts/parser/parse.py: parse", "src/dynamicprompts/wildcards/wildcard_manager.py: get_values"]}
{"id": "C80", "title": "Combinatorial iterations end", "statement": "Where none of the causes of C79 exists, a combinatorial iteration comes to an end: there is a number of prompts beyond which asking for more gives no more, and the iteration then stops or raises an exception. In particular this holds for templates without wildcards in which nothing asks for another method, and for texts whose wildcards all have values, finitely many, none of which needs its own wildcard.", "quantifier": "all templates, variables, wildcard managers, random sources and settings", "why_tests_cant": "termination of an iteration for all templates is not observable", "anchors": ["src/dynamicprompts/samplers/combinatorial.py: CombinatorialSampler", "src/dynamicprompts/generators/combinatorial.py", "src/dynamicprompts/sampling_context.py"]}
{"id": "C81", "title": "Looking up collections by name", "statement": "After any past, a clear_cache() and any reading and setting of options, get_collection_names() lists every name of a file or list of the roots once and nothing else. get_file(w) raises ValueError for a name that is not valid, KeyError for a valid name that is not listed, and otherwise returns the collection listed under the cleaned name, whose get_values() are the values of that file or list. For a name without pattern characters, get_values(w) returns the values of get_file(w), if there are any, with duplicates dropped and sorted as the options say. get_all_values(w) gives the texts of get_values(w) and fails exactly when it fails.", "quantifier": "all histories of the manager without writes, files, roots, options and names", "why_tests_cant": "holds for every history, file tree and spelling of a name", "anchors": ["src/dynamicprompts/wildcards/wildcard_manager.py: get_file, get_collection_names, get_all_values, get_values", "src/dynamicprompts/wildcards/tree/tree.py: get_collection, get_collection_names"]}
{"id": "C82", "title": "Wildcard values as a collection", "statement": "Indexing a collection of wildcard values with i gives the i-th item, counted from the end for negative i, and raises IndexError outside. Adding two collections puts items, texts, texts repeated by weight and cumulative weights after each other, and the weights of the sum vary exactly if it has two items of different weight. A shuffled copy has the same items as often, the same texts repeated by weight up to order, and varied weights exactly if the original has.", "quantifier": "all collections, indices and random sources", "why_tests_cant": "for all collections and all random sources", "anchors": ["src/dynamicprompts/wildcards/values.py: WildcardValues"]}
{"id": "C83", "title": "Commands made by code", "statement": "VariantCommand.from_literals_and_weights needs as many weights as texts and makes the variant with these options in order, weight one without weights, bounds in either order. For texts without special characters it is the command parsed from the template {~lo-hi$$sep$$w1::text1|w2::text2|...}. SequenceCommand.from_literals makes literals of the texts, with the given method, and keeps commands; of texts it gives, combinatorially, exactly one prompt, the texts with the separator between them; with any method every prompt is that text or that text with a separator stripped from its ends. Adding literals joins their texts with a space, in any grouping, and adding anything else to a literal fails.", "quantifier": "all texts, weights, bounds, separators, methods and contexts", "why_tests_cant": "for all texts and numbers", "anchors": ["src/dynamicprompts/commands/variant_command.py: from_literals_and_weights", "src/dynamicprompts/commands/sequence_command.py: from_literals", "src/dynamicprompts/commands/literal_command.py: __add__", "src/dynamicprompts/parser/parse.py: parse"]}
{"id": "C84", "title": "Cyclical prompts of a template text with wildcard files repeat", "statement": "The cyclical prompts of a template repeat: there is a number n > 0 such that prompt i + n equals prompt i for every i, from the first prompt on. If the cache of the manager was cleared, and since then no file changed and nothing was shuffled, prompt i of a template text whose wildcards take their values from the files is the closed form of C11 at i, whatever happened to the manager before.", "quantifier": "all templates with a closed form, template texts, files, histories of the manager, positions i and states of the random source", "why_tests_cant": "ranges over all positions of an endless iteration, all templates and all histories of the manager", "anchors": ["src/dynamicprompts/samplers/cycle.py: CyclicalSampler", "src/dynamicprompts/wildcards/wildcard_manager.py: get_values", "src/dynamicprompts/parser/parse.py: parse"]}
{"id": "C85", "title": "The sampling methods agree on which prompts a template has", "statement": "For a template of texts, sequences, wraps, choices, wildcards, variables and assignments, with positive weights and without a random or cyclical part, in which every choice either picks one option or has no two options with a text in common, every wildcard has values and its name and every immediately evaluated variable have one text only: every prompt of any method, with any limit and any random source, is one of its combinatorial prompts; and a text is a combinatorial prompt exactly if random sampling returns it for some outcomes of the draws. Also from the text of the template and the files of the wildcards.", "quantifier": "all such templates, contexts, methods, limits, wildcard contents and random sources", "why_tests_cant": "compares the sets of all prompts of two samplers, for all templates and all outcomes of the draws", "anchors": ["src/dynamicprompts/samplers/random.py: RandomSampler", "src/dynamicprompts/samplers/combinatorial.py: CombinatorialSampler", "src/dynamicprompts/samplers/cycle.py: CyclicalSampler"]}
{"id": "C86", "title": "Rounding of weights never lets an option of weight zero be drawn and shifts shares only slightly", "statement": "Weights are added, and the total is multiplied with the random number, in binary floating point. With floating point weights, none negative and one positive, every random number of [0, 1) draws exactly one option, and its weight is positive. The number draws option i of n only if it lies, up to a factor of ((1 + 2^-p) / (1 - 2^-p))^n for p bits of precision, in the exact share of option i. An option whose weight is too small to change the running sum is never drawn, although its weight is positive.", "quantifier": "all lists of floating point weights, random numbers, precisions and ways to break ties in rounding to nearest", "why_tests_cant": "ranges over all weights and random numbers; the boundary cases (a product that rounds up to the total, a sum that absorbs a weight) are a vanishing share of them", "anchors": ["src/dynamicprompts/utils.py: choose_without_replacement", "src/dynamicprompts/wildcards/values.py: WildcardValues", "src/dynamicprompts/samplers/random.py: RandomSampler"]}
{"id": "C87", "title": "Parts marked cyclical keep their step", "statement": "A part of a sequence that is marked cyclical (@) moves on by exactly one text per prompt, whatever the other parts are and whatever is drawn for them: in a random (or cyclical) template prompt i shows its text number i, and in a combinatorial template the prompt for combination i shows its text number i, there being one prompt per combination of the finite parts, in order. Equal cyclical parts of one combinatorial sequence share one stream of texts, from which they draw in turn, the rightmost first.", "quantifier": "all sequences whose parts marked cyclical have a closed form (C11), whose other parts never run dry (random) or list their texts (combinatorial), all random sources and numbers of prompts", "why_tests_cant": "the interplay of three samplers with shared generators holds for all sequences and all draws", "anchors": ["src/dynamicprompts/samplers/combinatorial.py: CombinatorialSampler._get_sequence", "src/dynamicprompts/samplers/command_collection.py: CommandCollection.get_value", "src/dynamicprompts/samplers/base.py: Sampler._get_sequence", "docs/SYNTAX.md: Samplers"]}
{"id": "C88", "title": "Shuffling and choosing are fair", "statement": "If successive draws of the random source are uniform and independent, every order of the values of a shuffled collection is equally likely (1/n! for n different values; arrangements that look the same add up), so no order is impossible and no order is preferred by a manager with shuffling on. The Jinja function choice returns each item with the same probability, weighted_choice returns items in proportion to their weights, and the feeling lucky generator picks its prompts independently, each image being equally likely.", "quantifier": "all collections (with repeated values), all fair sources of random numbers, all histories of the manager, all weights that are not negative and not all zero", "why_tests_cant": "probabilities are about all outcomes of all draws", "anchors": ["src/dynamicprompts/wildcards/values.py: WildcardValues.shuffled", "src/dynamicprompts/wildcards/wildcard_manager.py: WildcardManager.get_values", "src/dynamicprompts/jinja_extensions.py: choice, weighted_choice", "src/dynamicprompts/generators/feelinglucky.py: FeelingLuckyGenerator.generate"]}
{"id": "C89", "title": "Which keyword finder the attention generator uses, and its caches", "statement": "In a process, whatever texts keywords are asked for: while getting a keyword finder fails with an exception other than ImportError, every call tries again and raises that exception; the first finder obtained answers this and every later call, and the answer for a text is the finder's own answer, however often and in whatever order texts are asked for. The finder is the language model of spaCy, downloaded if it is missing, or the built-in one if spaCy or a part of it cannot be imported; then it stays the built-in one even if spaCy is installed later. Once there is a finder nothing is imported, loaded or downloaded again, and the model is asked only for texts that are not among the ten texts asked for last.", "quantifier": "all sequences of texts, all behaviours of the library", "why_tests_cant": "all histories of two caches, all ways in which a library can fail", "anchors": ["src/dynamicprompts/generators/attentiongenerator.py:get_spacy_chunker", "src/dynamicprompts/generators/attentiongenerator.py:get_chunker", "src/dynamicprompts/generators/attentiongenerator.py:find_noun_chunks"]}
{"id": "C90", "title": "Symbolic links and files that cannot be opened", "statement": "Loading and reading wildcards on a file system with symbolic links is the same as on the file system in which every link is replaced by the file or directory it leads to (absolute or relative, upwards with .., over up to 40 further links); loading ends also if links form circles. A link that leads nowhere, or a file without read permission, counts as a file: with the suffix .txt it is a collection, and asking for the values of any pattern that matches its name raises OSError.", "quantifier": "all file systems with links, root maps whose paths contain no .., libraries; histories of the manager", "why_tests_cant": "links can form any graph, including circles; a test sets up a few of them", "anchors": ["src/dynamicprompts/wildcards/tree/build.py:build_tree_from_path", "src/dynamicprompts/wildcards/tree/build.py:_mappingify_item", "src/dynamicprompts/wildcards/collection/text_file.py:WildcardTextFile.get_values"]}
{"id": "C91", "title": "Bytes that are not text", "statement": "A text file is read as UTF-8 with everything left out that cannot be decoded: reading never fails because of its bytes, text around undecodable bytes is read as it is, and each line decides its own value: such bytes never join or split lines or change the values of other lines. What write_text wrote, read_text and the values give back (carriage returns count as newlines). A byte order mark becomes part of the first value, and makes the first line a value even if it is empty or a comment. A JSON or YAML file gives its document only if all of it is valid UTF-8; otherwise it gives no collections.", "quantifier": "all sequences of bytes, texts, file systems", "why_tests_cant": "files can contain any bytes, truncated or mixed in any way; tests use a few valid files", "anchors": ["src/dynamicprompts/wildcards/collection/text_file.py:WildcardTextFile.get_values", "src/dynamicprompts/wildcards/collection/text_file.py:WildcardTextFile.read_text", "src/dynamicprompts/wildcards/collection/text_file.py:WildcardTextFile.write_text", "src/dynamicprompts/wildcards/collection/structured.py:parse_structured_file", "src/dynamicprompts/wildcards/tree/build.py"]}
{"id": "C92", "title": "Entries whose text is not a string", "statement": "An entry of a JSON or YAML list such as {text: 5, weight: 2} keeps its value as it is. Looking up a wildcard raises a TypeError exactly if one of the entries it finds has a list or a dictionary as its text (unless deduplication is off), or has a weight other than one and a text that is not a string (unless sorting is off or shuffling is on); if such an entry gets through, sampling from the values raises a TypeError. In all other cases the lookup gives what it gives with the texts turned into strings, provided (with deduplication) that two entries are equal exactly if their strings and weights are: the number 5 and the string \"5\" are two values. With deduplication, a lookup that succeeds gives only entries found, no two of them equal, and an equal one for each entry found; entries are equal if their texts are equal for Python (1 and true are) and their weights are. The entries come in the order of their strings if the lookup sorts and does not shuffle, otherwise in the order found (and are then shuffled if shuffling is on); without deduplication they are all the entries found.", "quantifier": "all documents, all wildcards, all settings of sorting, deduplication and shuffling", "why_tests_cant": "all documents and combinations of settings", "anchors": ["src/dynamicprompts/wildcards/collection/structured.py:_parse_structured_file_list", "src/dynamicprompts/wildcards/item.py:WildcardItem", "src/dynamicprompts/wildcards/wildcard_manager.py:WildcardManager._get_values", "src/dynamicprompts/wildcards/values.py:WildcardValues.string_values"]}
{"id": "C93", "title": "Interrupted writing", "statement": "If write_text of a text file is interrupted at any point (the process ends, the disk is full), the file is as it was before or shows the beginning of the new text cut between two characters, never a mixture of old and new and never a part of a character; every other file is as it was. The values then in the file are the old ones, or the first ones of the new text, possibly with the beginning of the next one. If the file existed, no wildcard appears, disappears or belongs to another file. If the program goes on after a failed write, the collection gives the values it has read before until the next successful write, and otherwise those of the cut text; no read fails. The failed write itself is always reported as an OSError.", "quantifier": "all file systems of bytes, paths, texts, points of interruption, root maps; all histories of reads, writes and failing writes", "why_tests_cant": "a test cannot interrupt a write at every byte of every text", "anchors": ["src/dynamicprompts/wildcards/collection/text_file.py:WildcardTextFile.write_text", "src/dynamicprompts/wildcards/collection/text_file.py:WildcardTextFile.get_values", "src/dynamicprompts/wildcards/tree/build.py:build_tree_from_path"]}
{"id": "C94", "title": "Wildcards a template does not use do not matter", "statement": "The prompts, the way sampling ends and the use of randomness depend on the wildcards only through the names the template can ask for: names of wildcards in the template, in its variables, in the value for unknown variables and, transitively, in the values those names stand for. Files and entries of structured files that no such name looks at may be added, changed or removed, and further roots configured, without any effect; in particular a text file none of whose collections is looked at can be rewritten. Holds for every sampling method, after every history of the two managers.", "quantifier": "all templates, contexts, sampling methods, random states, parser settings, pairs of wildcard managers with their files and histories", "why_tests_cant": "a test compares two particular file trees for one template; the property is about all of them, and about everything a value may refer to", "anchors": ["src/dynamicprompts/sampling_context.py:SamplingContext.sample_prompts", "src/dynamicprompts/samplers/random.py:RandomSampler", "src/dynamicprompts/samplers/cycle.py:CyclicalSampler", "src/dynamicprompts/samplers/combinatorial.py:CombinatorialSampler", "src/dynamicprompts/wildcards/wildcard_manager.py:WildcardManager.get_values", "src/dynamicprompts/wildcards/wildcard_manager.py:WildcardManager.match_collections"]}
{"id": "C95", "title": "Editing the plain text of a template does not disturb its choices", "statement": "If two templates differ only in the wording of the plain text between their variants, wildcards, variables and wrappers, then sampling them from the same random state makes the same choices: they give equally many prompts, corresponding prompts agree in the text of every other part, both end in the same way, and the random generator and everything else is left in the same state. In particular replacing one piece of text by another replaces it in every prompt and changes nothing else. Holds for every sampling method, including parts with a method of their own.", "quantifier": "all pairs of templates with the same parts up to plain text at the top level, all contexts, sampling methods, random states, wildcard contents, separators and whitespace settings, any number of prompts", "why_tests_cant": "a test compares two wordings of one template for one seed; the property is about every template, wording and state", "anchors": ["src/dynamicprompts/sampling_context.py:SamplingContext.sample_prompts", "src/dynamicprompts/samplers/base.py:Sampler._get_sequence", "src/dynamicprompts/samplers/combinatorial.py:CombinatorialSampler._get_sequence", "src/dynamicprompts/samplers/base.py:Sampler._get_literal"]}
{"id": "C96", "title": "Writing out the values of a wildcard", "statement": "A wildcard with at least two values may be replaced, in a template, by the variant that lists these values (with their weights): __colors__ by {red|blue} if the values of colors are red and blue. The two templates have the same texts; sampled randomly from a fair source every prompt has the same probability; sampled cyclically, and (if the texts of the values are different) combinatorially, they give the same prompts in the same order, provided all the weights are one.", "quantifier": "all templates, wildcards with two or more values whose name is plain text, values (which may again contain variants, wildcards and variables), weights, positions of wildcards among the parts of the template, numbers of prompts, states; whitespace being kept", "why_tests_cant": "a test compares one wildcard file with one variant; the property ranges over every template and every value, and the random part is about probabilities", "anchors": ["src/dynamicprompts/samplers/random.py:RandomSampler._get_wildcard", "src/dynamicprompts/samplers/random.py:RandomSampler._get_variant", "src/dynamicprompts/samplers/cycle.py:CyclicalSampler._get_wildcard", "src/dynamicprompts/samplers/cycle.py:CyclicalSampler._get_variant", "src/dynamicprompts/samplers/combinatorial.py:CombinatorialSampler._get_wildcard", "src/dynamicprompts/samplers/combinatorial.py:CombinatorialSampler._get_variant"]}
{"id": "C97", "title": "Renaming variables", "statement": "The names of variables do not matter. Renaming the variables of a template, wherever they are assigned, used or passed to a wildcard, together with those given from outside, gives the same prompts in the same order, ends in the same way and leaves the random source and the wildcard manager in the same state, provided different variables keep different names. If the run ends with an exception that names a variable, it names the renamed one.", "quantifier": "all templates (as written, or as commands), injective renamings, variables given from outside, default methods and samplers, numbers of prompts, states; the renamed variables not being mentioned in wildcard names and wildcard values (which belong to the collection, not to the template)", "why_tests_cant": "a test uses one name; the property compares every template with every renaming of it, including names that shadow one another, recursion and defaults", "anchors": ["src/dynamicprompts/sampling_context.py:SamplingContext.with_variables", "src/dynamicprompts/sampling_context.py:SamplingContext.process_variable_assignment", "src/dynamicprompts/samplers/base.py:Sampler._get_variable", "src/dynamicprompts/samplers/utils.py:wildcard_to_variant"]}
{"id": "C98", "title": "Only the proportions of weights matter", "statement": "Multiplying all the weights of a template by the same positive number changes nothing: the same random numbers lead to the same choices, so the prompts, the way the run ends and the state left behind are the same. With floating point numbers this holds of every power of two, with exact arithmetic of every positive number. Moreover the chance of every prompt depends only on the proportions of the weights within each choice: multiplying the weights of each choice by a number of its own changes no chance, so {1::a|3::b} {x|y} and {5::a|15::b} {2::x|2::y} are equally likely to give any text.", "quantifier": "all templates, nested choices, variables given from outside, positive factors (one for the template; one for each choice), samplers, numbers of prompts, random sources and states", "why_tests_cant": "a test compares the draws of one seed or a frequency; the property compares all templates with all their multiples, draw by draw and in exact probability", "anchors": ["src/dynamicprompts/samplers/random.py:RandomSampler._get_variant_choices", "src/dynamicprompts/samplers/random.py:RandomSampler._get_variant", "src/dynamicprompts/commands/variant_command.py:VariantCommand.weights"]}
{"id": "C99", "title": "The order of options", "statement": "It does not matter in which order the options of a choice are written. Writing the options of choices in another order, at any depth, gives combinatorially the same prompts, each as often as before, in another order; and at random every text is exactly as likely as before. (Options of a reordered choice differ; where several of them may be picked at random, equal weights stand together, since otherwise the code mixes up the weights; choices inside the values of variables keep their order, since combinatorially an immediate variable takes the first of them.)", "quantifier": "all templates, permutations of options at every depth, variables given from outside, wildcard files, random sources and states", "why_tests_cant": "a test compares two orders of one choice; the property ranges over all permutations of all nested choices, and compares exact probabilities", "anchors": ["src/dynamicprompts/samplers/combinatorial.py:CombinatorialSampler._get_variant", "src/dynamicprompts/samplers/random.py:RandomSampler._get_variant", "src/dynamicprompts/utils.py:choose_without_replacement", "src/dynamicprompts/commands/variant_command.py:VariantCommand.get_value_combinations"]}
{"id": "C100", "title": "Weights and copies", "statement": "Giving an option of a choice of one the weight two is the same as writing it twice. Replacing, at any depth, an option by copies of it whose weights add up to its weight gives combinatorially exactly the same prompts in the same order (the copies do not give anything twice), and at random every text is exactly as likely as before. (The choice picks one of two or more options; choices inside the values of variables stay as they are. The cyclical sampler does distinguish the two, because it ignores weights but goes round all copies.)", "quantifier": "all templates, replacements of options by copies at every depth, weights, variables given from outside, wildcard files, random sources and states", "why_tests_cant": "a test compares two templates; the property ranges over all templates, nestings and ways to split a weight, and compares exact probabilities", "anchors": ["src/dynamicprompts/samplers/combinatorial.py:CombinatorialSampler._get_variant", "src/dynamicprompts/samplers/random.py:RandomSampler._get_variant", "src/dynamicprompts/utils.py:choose_without_replacement", "src/dynamicprompts/commands/variant_command.py:VariantCommand.get_value_combinations"]}
{"id": "C101", "title": "Nested choices", "statement": "A choice of one inside a choice of one is the same as one flat choice in which the inner options share the weight of the inner choice in proportion to their weights ({a|2::{b|c}} is {a|b|c}), and braces around a choice or a text alone change nothing. At any depth, rewriting a template in this way gives combinatorially the same prompts in the same order, and at random every text is exactly as likely as before. (The cyclical sampler does distinguish the two. The options of a choice of several must stay different from each other.)", "quantifier": "all templates, places at every depth, weights, variables given from outside, wildcard files, random sources and states", "why_tests_cant": "a test compares two templates; the property ranges over all templates and places in them, and compares whole lists and exact probabilities", "anchors": ["src/dynamicprompts/samplers/combinatorial.py:CombinatorialSampler._get_variant", "src/dynamicprompts/samplers/combinatorial.py:CombinatorialSampler._get_sequence", "src/dynamicprompts/samplers/random.py:RandomSampler._get_variant", "src/dynamicprompts/samplers/random.py:RandomSampler._get_sequence"]}
{"id": "C102", "title": "Grouping of parts", "statement": "How the parts of a prompt are grouped does not matter. Splitting a text into two neighbouring texts or joining them, taking a sequence that assigns nothing apart into the sequence around it, and a sequence of a single part that is not a wildcard, give, at any depth, combinatorially the same prompts in the same order, and at random every text is exactly as likely as before.", "quantifier": "all templates, places at every depth, variables given from outside, wildcard files, random sources and states", "why_tests_cant": "a test compares two templates; the property ranges over all templates and places in them, and compares whole lists and exact probabilities", "anchors": ["src/dynamicprompts/samplers/combinatorial.py:CombinatorialSampler._get_variant", "src/dynamicprompts/samplers/combinatorial.py:CombinatorialSampler._get_sequence", "src/dynamicprompts/samplers/random.py:RandomSampler._get_variant", "src/dynamicprompts/samplers/random.py:RandomSampler._get_sequence", "src/dynamicprompts/commands/sequence_command.py:SequenceCommand"]}
{"id": "C103", "title": "Common beginnings and ends", "statement": "A text with which all options of a choice of one begin can be written once before the choice, and one with which all end once after it: {red cat|red dog} and red {cat|dog}. At any depth, and together with the other ways of rewriting a template (copies of options, nested choices, grouping of parts), one after the other, this gives combinatorially the same prompts in the same order, and at random every text is exactly as likely as before.", "quantifier": "all templates, places at every depth, texts, weights, variables given from outside, wildcard files, random sources and states", "why_tests_cant": "a test compares two templates; the property ranges over all templates and places in them, and compares whole lists and exact probabilities", "anchors": ["src/dynamicprompts/samplers/combinatorial.py:CombinatorialSampler._get_variant", "src/dynamicprompts/samplers/combinatorial.py:CombinatorialSampler._get_sequence", "src/dynamicprompts/samplers/random.py:RandomSampler._get_variant", "src/dynamicprompts/samplers/random.py:RandomSampler._get_sequence"]}
{"id": "C104", "title": "Variables as abbreviations", "statement": "A variable that is not sampled at once is an abbreviation. Writing what each variable stands for (its definition, the default of the access, or the configured replacement for unknown variables, with the variables in it written out as well) in place of the variable, and leaving out the assignments, gives a template without variables that has combinatorially the same prompts in the same order and cyclically the same prompts; at random every text is exactly as likely as before. For the written-out template it does not matter which variables exist. (Options of a choice must stay different, a variable alone in braces must not stand for a wildcard, and values of wildcards must not use variables.)", "quantifier": "all templates with assignments that need no sampling at once, variables given from outside, replacements for unknown variables, wildcard files, random sources and states", "why_tests_cant": "a test compares two templates; the property ranges over all templates, definitions that use other variables, scopes and places, and compares whole lists and exact probabilities", "anchors": ["src/dynamicprompts/sampling_context.py:SamplingContext.process_variable_assignments", "src/dynamicprompts/samplers/base.py:Sampler._get_variable", "src/dynamicprompts/commands/variable_commands.py:VariableAccessCommand", "src/dynamicprompts/commands/variable_commands.py:VariableAssignmentCommand"]}
{"id": "C105", "title": "Random numbers made from random bits", "statement": "Python makes its random numbers from random bits: integers by drawing bits until the result is in range, and numbers in [0, 1) with 53 binary places. With fair, independent bits the integers are exactly uniform, a number in [0, 1) falls into any interval with the interval's length as probability up to 2^-53, and all draws are independent. So shuffling a wildcard's values and Jinja's choice are exactly uniform; weighted_choice follows the weights up to 2^-53 for each time an item is listed; and a text comes from random sampling with the chance its template gives it, up to 2^-53 for each number in [0, 1) drawn in the ways to get it.", "quantifier": "all sources of fair bits, ranges, intervals, sequences of draws, collections, weights, templates and texts", "why_tests_cant": "statistics over samples cannot show exact probabilities or independence; drawing bits until the result is in range has no bound on its length", "anchors": ["src/dynamicprompts/constants.py:DEFAULT_RANDOM", "src/dynamicprompts/samplers/random.py:RandomSampler._get_variant", "src/dynamicprompts/utils.py:choose_without_replacement", "src/dynamicprompts/wildcards/values.py:WildcardValues.shuffled", "src/dynamicprompts/jinja_extensions.py:choice", "src/dynamicprompts/jinja_extensions.py:weighted_choice"]}
{"id": "C106", "title": "The regular expressions behind wildcard patterns", "statement": "A wildcard pattern becomes a regular expression: bracket expressions are cut into ranges, ranges out of order are dropped, special characters are escaped, and the text between two stars is searched for once and never again. For every pattern this expression is valid (no pattern makes a lookup fail with re.error), a bracket expression never swallows what follows it, and the expression matches exactly the names that fit the pattern when every way to divide the name among the stars is tried.", "quantifier": "all patterns, names and bracket expressions", "why_tests_cant": "all strings; whether the first fit loses a match depends on everything that follows it", "anchors": ["src/dynamicprompts/wildcards/tree/tree.py:WildcardTree.match_collections"]}
{"id": "C107", "title": "Wildcards that need each other", "statement": "If some wildcards need each other in a circle (every value of each is empty or contains, as a part that cannot be left out, one of these wildcards), then a template that needs one of them never gives a prompt: with no sampling method, whatever the random numbers and however long it is given. The same holds for wildcard files, whatever happened to the manager since its cache was cleared, shuffled or not, as long as the files stay the same.", "quantifier": "all sets of wildcards, values, templates, variables, methods, random sources, amounts of time and histories of the manager", "why_tests_cant": "a test can only wait for some time; and it cannot try all random numbers", "anchors": ["src/dynamicprompts/samplers/random.py:RandomSampler._get_wildcard", "src/dynamicprompts/samplers/combinatorial.py:CombinatorialSampler._get_wildcard", "src/dynamicprompts/samplers/cycle.py:CyclicalSampler._get_wildcard", "src/dynamicprompts/sampling_context.py:SamplingContext.sample_prompts"]}
{"id": "C108", "title": "Weights in double precision with random numbers from bits", "statement": "With weights added and multiplied in double precision and random numbers made from fair bits, as Python does it, an option of a choice, a value of a wildcard and an item of weighted_choice are still drawn in proportion to their weights: the probability is the exact share up to the number of options times 2^-50 (for a text listed several times: for each time it is listed). If the weights are rounded to double precision when they are read, the same holds for the weights as written, up to another 2^-51.", "quantifier": "all lists of double precision weights that are not negative and not all zero, all texts, all sources of fair bits and all ways to break ties in rounding to nearest", "why_tests_cant": "an error of 2^-50 cannot be seen in any number of draws a test can make, and a test tries a few lists of weights", "anchors": ["src/dynamicprompts/utils.py:choose_without_replacement", "src/dynamicprompts/wildcards/values.py:WildcardValues.get_weighted_random_generator", "src/dynamicprompts/jinja_extensions.py:weighted_choice", "src/dynamicprompts/samplers/random.py:RandomSampler"]}
{"id": "C109", "title": "More options and values only add prompts", "statement": "Adding options to the choices of a template, or values to its wildcards, takes no prompt away: every prompt it had before can still come up at random, and is still in the combinatorial list. New options need a positive weight and choices must have had room for as many options as they may pick; a wildcard in braces of its own must have had at least two values and as many as it may pick. Nothing else has to stay: weights may change, values may come anywhere in the list, other wildcards may appear.", "quantifier": "all templates, contexts, wildcard values and additions to them as described, all sampling methods before, all states of files and cache between", "why_tests_cant": "a test adds one value to one list; the claim is for every addition to every template, including choices of several, wildcards in wildcards and variables", "anchors": ["src/dynamicprompts/samplers/base.py:Sampler", "src/dynamicprompts/samplers/random.py:RandomSampler", "src/dynamicprompts/samplers/combinatorial.py:CombinatorialSampler", "src/dynamicprompts/wildcards/wildcard_manager.py:WildcardManager.get_values"]}
{"id": "C110", "title": "A wildcard in braces stands for the choice of its values", "statement": "A choice whose only option is a wildcard, like {2$$ and $$__colors__}, means the choice of the values of that wildcard written out: every value as often as the whole part of its weight says, all with the same weight, at most as many picked as the wildcard has lines. As a template, both give the same prompts, exceptions and draws from the same state with every sampling method. Anywhere inside a template, both give the same combinatorial prompts in the same order and every text the same probability. The weight before the wildcard, its own sampling method and its parameters make no difference. If the wildcard has no values, or only weights below one, such a choice gives no prompt at all, with every sampling method.", "quantifier": "all wildcards with plain names and one or more values, bounds, separators, methods, weights, parameters, contexts, numbers of prompts, states, and templates around", "why_tests_cant": "the replacement must be faithful for every list of values, every pair of bounds and every place in a template", "anchors": ["src/dynamicprompts/samplers/utils.py:wildcard_to_variant", "src/dynamicprompts/samplers/random.py:RandomSampler._get_variant", "src/dynamicprompts/samplers/combinatorial.py:CombinatorialSampler._get_variant", "src/dynamicprompts/samplers/cycle.py:CyclicalSampler._get_variant"]}
{"id": "C111", "title": "Renaming wildcards", "statement": "If wildcards get new names in the collection, and every mention of them in the template, in the variables and in the values of other wildcards is changed along, sampling gives the same prompts, ends in the same way (limit, end or the same exception) and draws the same random numbers, with every sampling method and from every state.", "quantifier": "all collections, one-to-one renamings of wildcards with plain names and at least one value, templates, contexts, methods, numbers of prompts and states", "why_tests_cant": "the names must not matter for any template, nesting, collection and draw; a test compares single runs", "anchors": ["src/dynamicprompts/samplers/random.py:RandomSampler._get_wildcard", "src/dynamicprompts/samplers/cycle.py:CyclicalSampler._get_wildcard", "src/dynamicprompts/samplers/combinatorial.py:CombinatorialSampler._get_wildcard", "src/dynamicprompts/samplers/utils.py:wildcard_to_variant", "src/dynamicprompts/wildcards/wildcard_manager.py:WildcardManager.get_values"]}
{"id": "C112", "title": "Text collections in any encoding", "statement": "For text collections in any encoding that reads what it writes, on a disk where other collections and programs write too: after a write_text that succeeded, and anything that does not write to the same file, read_text returns what was written and get_values its lines. write_text succeeds exactly if the file can be opened and the text can be encoded; if it cannot be encoded, the exception leaves an empty file. What get_values returned once, it returns until a write_text of the same collection succeeds. The text collections of a wildcard manager are those in UTF-8.", "quantifier": "all encodings, numbers of collections, files, disks and histories of get_values, read_text, write_text and writing by others", "why_tests_cant": "unbounded histories with several collections and other writers; every encoding and text", "anchors": ["src/dynamicprompts/wildcards/collection/text_file.py:WildcardTextFile"]}
{"id": "C113", "title": "Writing through symbolic links", "statement": "write_text of a text collection whose path leads over at most 40 symbolic links to a file succeeds, if the file may be written: afterwards every path that leads to the same place reads the new contents, every other path reads what it read before, and all paths lead where they led (no link is replaced by a file). If the path leads to the name of a file that is not there, in a directory that is, the file is made there, also when the path is a link that leads nowhere; the path then reads what was written, and only paths that now lead there read anything else than before. In all other cases write_text is an OSError.", "quantifier": "all file systems with symbolic links, absolute or relative, in chains and circles; all paths and contents", "why_tests_cant": "unbounded file systems and chains of links; every other path must be unaffected", "anchors": ["src/dynamicprompts/wildcards/collection/text_file.py:WildcardTextFile.write_text"]}
{"id": "C114", "title": "Combinatorial prompts without end", "statement": "In a combinatorial template, a part marked ~ or @ whose text is reached through a variable, a value of a wildcard or a wrap (not written directly in the sequence) never ends; nor does a wildcard without values, which gives its own name again and again. Asking such a template for k prompts then gives exactly k prompts, for every k, and the iteration stops only because k is reached. The i-th prompt is known (up to the choices of a part marked ~): everything left of the endless part keeps its first text forever, the endless part advances once for each combination of what is to the right of it, and values of a wildcard after the endless one are never reached. Such a template is never one of those whose combinatorial prompts form a finite list.", "quantifier": "all templates built by nesting sequences, variables, wildcards and wraps around a marked part or a wildcard without values; all environments, also wildcards from files after any history; all k and all states of the random source", "why_tests_cant": "that an iteration never ends, and what all its prompts are, cannot be observed in a finite run", "anchors": ["src/dynamicprompts/samplers/combinatorial.py:CombinatorialSampler", "src/dynamicprompts/samplers/base.py:Sampler", "src/dynamicprompts/samplers/utils.py:wildcard_to_variant", "src/dynamicprompts/samplers/utils.py:get_wildcard_not_found_fallback"]}
{"id": "C115", "title": "Combinatorial templates that stop answering", "statement": "A combinatorial choice of one option, one of whose options never ends (C114) but has only finitely many different texts, gives at most the different texts of that option and of the options before it; the options after it are never reached, and asking for one more prompt is never answered: the iteration neither ends nor raises. A sequence with such a choice gives at most as many prompts as the choice has texts times the combinations of what follows, all with the first texts of everything before; asking for more is never answered either. The same holds if such a command is an option of a choice of one option, a value of a wildcard, the inside of a wrap or the wrapper: the texts of what comes before it, then its own (inside a wrap with the first wrapper only, as a wrapper with every inner text), and nothing after. Such a template is neither one that lists its texts and stops nor one that gives prompts for ever.", "quantifier": "all such choices, alone, behind variables, in sequences, choices, wildcard values and wraps, nested to any depth; all environments, numbers of prompts, states of the random source; however long one waits", "why_tests_cant": "a test cannot observe that an answer never comes", "anchors": ["src/dynamicprompts/samplers/combinatorial.py:CombinatorialSampler._get_variant", "src/dynamicprompts/samplers/combinatorial.py:CombinatorialSampler._get_sequence", "src/dynamicprompts/samplers/combinatorial.py:CombinatorialSampler._get_wildcard", "src/dynamicprompts/samplers/combinatorial.py:CombinatorialSampler._get_wrap"]}
