{"claims": [
 {"property": "C01", "status": "proved", "theorems": ["Verif.Props.combinatorial_enumerates", "Verif.Props.combinatorial_text_enumerates", "Verif.Props.run_is_enum", "Verif.Props.plain_enumerates", "Verif.Props.plain_text_enumerates", "Verif.Props.empty_token_fails"], "note": "combinatorial_enumerates covers every such template, with its ending (Spec/Endings.lean); run_is_enum: if every token has a text the run is the plain list of Spec/Enumerate.lean and stops; empty_token_fails shows the failing case."},
 {"property": "C02", "status": "proved", "theorems": ["Verif.Props.combinatorial_variant_distinct", "Verif.Props.combinatorial_pick_one_distinct"], "note": ""},
 {"property": "C03", "status": "proved", "theorems": ["Verif.Props.combinatorial_literals_complete"], "note": ""},
 {"property": "C04", "status": "proved", "theorems": ["Verif.Props.limit_truncates", "Verif.Props.generate_truncates", "Verif.Props.unlimited_truncates"], "note": "For the sampling context with any method (limit_truncates) and for CombinatorialPromptGenerator.generate, also compared with no limit."},
 {"property": "C05", "status": "proved", "theorems": ["Verif.Props.nonfinite_tokens_do_not_multiply", "Verif.Props.counted_prompts"], "note": "Exact count, shape of every prompt, for every random source; sequences in sequences and wraps by counted_prompts."},
 {"property": "C06", "status": "proved", "theorems": ["Verif.Props.deterministic_run", "Verif.Props.rng_irrelevant", "Verif.Props.rng_state_unchanged", "Verif.Props.repeatable"], "note": "Whole runs, including errors and non-termination; the random source may even be replaced by another one with another state type."},
 {"property": "C07", "status": "proved", "theorems": ["Verif.Props.sampling_sound"], "note": ""},
 {"property": "C08", "status": "proved", "theorems": ["Verif.Props.variant_bounds", "Verif.Props.literal_variant_choices", "Verif.Props.bounds_normalised"], "note": ""},
 {"property": "C09", "status": "proved", "theorems": ["Verif.Props.choose_submultiset", "Verif.Props.choose_zero_of_one", "Verif.Props.choose_value_error", "Verif.Props.choose_succeeds", "Verif.Props.literal_variant_choices"], "note": "The exception of a single value is part of the statement (choose_zero_of_one shows it occurs). With weights of zero it can also fail because no weight is left."},
 {"property": "C10", "status": "proved", "theorems": ["Verif.Props.draw_iff", "Verif.Props.draw_positive", "Verif.Props.draw_reaches", "Verif.Props.choices_positive", "Verif.Props.first_choice_positive", "Verif.Props.choice_positive_adjacent", "Verif.Props.choice_positive_distinct", "Verif.Props.zero_weight_chosen_iff", "Verif.Props.zero_weight_second_draw"], "note": "zero_weight_chosen_iff says exactly for which weights a selection of several different options can contain one of weight zero (the code removes the first equal weight, not the weight of the chosen option); zero_weight_second_draw is a case."},
 {"property": "C11", "status": "proved", "theorems": ["Verif.Props.cyclical_closed_form", "Verif.Props.cyclical_unique"], "note": "Covers wildcards and variables as well, for managers that always give the same answer."},
 {"property": "C12", "status": "proved", "theorems": ["Verif.Props.cyclical_in_sync", "Verif.Props.cyclical_period"], "note": "For all numbers of literal options."},
 {"property": "C13", "status": "proved", "theorems": ["Verif.Props.productive_returns_all", "Verif.Props.random_returns_all", "Verif.Props.random_generate_returns_all"], "note": "All templates satisfying the inductive predicate Spec.ProdPrompt (literals, sequences with assignments, variants, wildcards, wraps, accesses), every number of prompts, every random source."},
 {"property": "C14", "status": "proved", "theorems": ["Verif.Props.seed_decides_prompt", "Verif.Props.equal_seeds_equal_prompts", "Verif.Props.seeds_give_all", "Verif.Props.seed_does_not_decide"], "note": "For templates that keep nothing between prompts (Spec.Memoryless) and worlds where wildcards answer the same each time (Spec.SeededWorld; C65 proves it of the modelled files and manager). seed_does_not_decide shows that each excluded kind of template is a real exception."},
 {"property": "C15", "status": "proved", "theorems": ["Verif.Props.immediate_sampled_once"], "note": ""},
 {"property": "C16", "status": "proved", "theorems": ["Verif.Props.sequence_assignments", "Verif.Props.conditional_after_plain"], "note": "Immediate assignments: C15, and the relation Assigned of C19."},
 {"property": "C17", "status": "proved", "theorems": ["Verif.Props.variable_lookup", "Verif.Props.undefined_variable", "Verif.Props.variable_lookup_cases", "Verif.Props.empty_value_is_undefined", "Verif.Props.variable_sampled"], "note": ""},
 {"property": "C18", "status": "proved", "theorems": ["Verif.Props.resolution_terminates", "Verif.Props.recursion_detected", "Verif.Props.recursion_only_then"], "note": ""},
 {"property": "C19", "status": "proved", "theorems": ["Verif.Props.siblings_sample_alone", "Verif.Props.siblings_language", "Verif.Props.nonfinite_tokens_do_not_multiply"], "note": "A sequence yields the joined results of its parts each sampled on its own; parts in the same sequence do not influence each other's texts. For combinatorial sequences: C05, where each token contributes the texts it has on its own."},
 {"property": "C20", "status": "proved", "theorems": ["Verif.Props.nesting_rule", "Verif.Props.no_combinatorial_below", "Verif.Props.own_method_is_context_method"], "note": "The rule itself, and the whole-run consequence: replacing the combinatorial sampler by one that always fails changes nothing for runs below a random or cyclical context."},
 {"property": "C21", "status": "proved", "theorems": ["Verif.Props.squash_normal_form", "Verif.Props.squash_idempotent", "Verif.Props.squash_no_runs", "Verif.Props.prompts_squashed"], "note": "String facts and the statement about every prompt produced with ignore_whitespace."},
 {"property": "C22", "status": "proved", "theorems": ["Verif.Props.joined_single", "Verif.Props.joined_empty_separator", "Verif.Props.joined_general"], "note": ""},
 {"property": "C23", "status": "proved", "theorems": ["Verif.Props.wrap_spec", "Verif.Props.wrap_injective"], "note": ""},
 {"property": "C24", "status": "proved", "theorems": ["Verif.Props.dedupe_first_occurrences", "Verif.Props.dedupe_spec", "Verif.Props.dedupe_idempotent"], "note": ""},
 {"property": "C25", "status": "proved", "theorems": ["Verif.Props.clean_by_segments", "Verif.Props.clean_by_segments_total", "Verif.Props.clean_spelling_irrelevant", "Verif.Props.clean_canonical", "Verif.Props.canonical_is_clean", "Verif.Props.dotdot_matches_nothing", "Verif.Props.canonical_rest_is_clean"], "note": ""},
 {"property": "C26", "status": "proved", "theorems": ["Verif.Props.wrapped_is_wildcard", "Verif.Props.wrapping_wildcard", "Verif.Props.wrapping_idempotent", "Verif.Props.is_wildcard_iff", "Verif.Props.wrapping_plain", "Verif.Props.clean_wrapped"], "note": ""},
 {"property": "C27", "status": "proved", "theorems": ["Verif.Props.cache_transparent", "Verif.Props.cache_transparent_new", "Verif.Props.setters_clear", "Verif.Props.cache_transparent_shuffled"], "note": "write_is_not_seen and shuffle_leaves_unsorted show that the two restrictions are needed"},
 {"property": "C28", "status": "proved", "theorems": ["Verif.Props.cache_bounded"], "note": ""},
 {"property": "C29", "status": "proved", "theorems": ["Verif.Props.get_values_arranged", "Verif.Props.get_values_succeeds", "Verif.Props.get_values_shuffled", "Verif.Props.finds_unique", "Verif.Props.options_arranged", "Verif.Props.arranged_unique", "Verif.Props.new_manager_values"], "note": ""},
 {"property": "C30", "status": "proved", "theorems": ["Verif.Props.pattern_matches", "Verif.Props.plain_pattern", "Verif.Props.prefix_pattern", "Verif.Props.suffix_pattern", "Verif.Props.recursive_pattern", "Verif.Props.range_pattern"], "note": ""},
 {"property": "C31", "status": "proved", "theorems": ["Verif.Props.get_values_arranged", "Verif.Props.no_fallback_if_values", "Verif.Props.no_fallback_for_recursive", "Verif.Props.fallback", "Verif.Props.fallback_collections", "Verif.Props.wrapped_fallback_collections"], "note": ""},
 {"property": "C32", "status": "proved", "theorems": ["Verif.Props.text_file_values", "Verif.Props.text_file_values_total"], "note": ""},
 {"property": "C33", "status": "proved", "theorems": ["Verif.Props.reads_own_writes"], "note": "other_collection_is_stale shows that a second collection object for the same file does not see the write"},
 {"property": "C34", "status": "proved", "theorems": ["Verif.Props.tree_walk", "Verif.Props.tree_names", "Verif.Props.tree_map", "Verif.Props.tree_reaches"], "note": "untidy_name_changes shows that the restriction to tidy names is needed"},
 {"property": "C35", "status": "proved", "theorems": ["Verif.Props.later_root_wins", "Verif.Props.later_item_wins", "Verif.Props.qualified_name", "Verif.Props.root_map_names", "Verif.Props.root_map_nodup", "Verif.Props.single_item", "Verif.Props.root_item_names", "Verif.Props.manager_names", "Verif.Props.path_and_roots", "Verif.Props.roots_alone", "Verif.Props.path_alone", "Verif.Props.nothing_given"], "note": "Also what the constructor makes of its arguments path and root_map."},
 {"property": "C36", "status": "proved", "theorems": ["Verif.Props.structured_collections", "Verif.Props.structured_collections_total", "Verif.Props.list_fails_iff", "Verif.Props.keys_are_independent", "Verif.Props.flat_document"], "note": ""},
 {"property": "C37", "status": "proved", "theorems": ["Verif.Props.iterate_weighted_spec", "Verif.Props.iterate_weighted_count", "Verif.Props.iterate_unweighted", "Verif.Props.cum_weights_spec"], "note": ""},
 {"property": "C38", "status": "proved", "theorems": ["Verif.Props.shuffle_permutes", "Verif.Props.shuffle_keeps_original"], "note": ""},
 {"property": "C39", "status": "proved", "theorems": ["Verif.Props.missing_wildcard_echoed"], "note": "For a wildcard given by a plain name; a command path is re-sampled for the echo (finding in DESIGN.md)."},
 {"property": "C40", "status": "proved", "theorems": ["Verif.Props.wrong_number_of_seeds", "Verif.Props.one_seed_for_all", "Verif.Props.seeds_in_turn", "Verif.Props.false_seeds", "Verif.Props.empty_template"], "note": "All seed arguments: wrong number, one seed, one per prompt, false values, empty template."},
 {"property": "C41", "status": "proved", "theorems": ["Verif.Props.batched_concatenates", "Verif.Props.batched_raises", "Verif.Props.batched_repeats", "Verif.Props.batched_none"], "note": "Results, exceptions, constant inner generators, no batches."},
 {"property": "C42", "status": "proved", "theorems": ["Verif.Props.jinja_result", "Verif.Props.jinja_count", "Verif.Props.jinja_raises", "Verif.Props.permutations_exact", "Verif.Props.permutations_count", "Verif.Props.permutations_edges", "Verif.Props.jinja_weighted_choice", "Verif.Props.jinja_combinatorial", "Verif.Props.jinja_random_sample"], "note": "The Jinja library is an arbitrary rendering function; all functions added to templates are modelled."},
 {"property": "C43", "status": "proved", "theorems": ["Verif.Props.magic_retries", "Verif.Props.magic_keeps", "Verif.Props.magic_succeeds", "Verif.Props.magic_batch"], "note": "For any model that answers one text per prompt."},
 {"property": "C44", "status": "proved", "theorems": ["Verif.Props.magic_keeps_original", "Verif.Props.magic_braces_are_parentheses", "Verif.Props.magic_changes_separators_only", "Verif.Props.magic_parentheses", "Verif.Props.magic_phrases", "Verif.Props.magic_exclamation_marks", "Verif.Props.magic_separators", "Verif.Props.magic_hyphens", "Verif.Props.magic_underscores", "Verif.Props.magic_empty_phrases"], "note": "All clean-up steps modelled; the class of word characters and the text of the weights are arbitrary. The clauses on separators and parentheses are for added text without exclamation marks. Examples show that the condition on the ends of phrases is needed. The rules for separators, hyphens, underscores and empty phrases hold at any place of any added text, with exclamation marks too."},
 {"property": "C45", "status": "proved", "theorems": ["Verif.Props.magic_exact", "Verif.Props.magic_model", "Verif.Props.magic_pipeline", "Verif.Props.magic_no_pipeline_after_failed_load", "Verif.Props.magic_name_is_shared"], "note": "magic_exact is the complete behaviour for every sequence of operations and outcomes of loads; the others are readable consequences and the case of a failed load."},
 {"property": "C46", "status": "proved", "theorems": ["Verif.Props.attention_prompts", "Verif.Props.attention_succeeds", "Verif.Props.attention_reversible", "Verif.Props.attention_weight", "Verif.Props.cheap_keywords", "Verif.Props.cheap_keywords_exact"], "note": "Rationals instead of floats for the weight; the keyword finder with the language model is an arbitrary function with non-empty keywords."},
 {"property": "C47", "status": "proved", "theorems": ["Verif.Props.lucky_outcome", "Verif.Props.lucky_succeeds", "Verif.Props.lucky_before"], "note": "The service is an arbitrary computation."},
 {"property": "C48", "status": "proved", "theorems": ["Verif.Props.plain_text_parses_to_itself", "Verif.Props.plain_text_is_returned"], "note": "For all parser configurations; the empty template parses to an empty sequence."},
 {"property": "C49", "status": "proved", "theorems": ["Verif.Props.parse_source", "Verif.Props.syntax_unambiguous"], "note": "The template language and the meaning of templates are described in Spec/Syntax.lean without reference to the parser. Default delimiters, no tabs (C61)."},
 {"property": "C50", "status": "proved", "theorems": ["Verif.Props.bounds_parsed", "Verif.Props.no_bounds_parsed", "Verif.Props.parsed_variant"], "note": ""},
 {"property": "C51", "status": "proved", "theorems": ["Verif.Props.combinatorial_lists"], "note": "Closed form by an inductive specification; wildcards must have values and never-changing answers."},
 {"property": "C52", "status": "proved", "theorems": ["Verif.Props.walk_finds", "Verif.Props.directory_names", "Verif.Props.text_file_name", "Verif.Props.other_files_ignored"], "note": ""},
 {"property": "C53", "status": "proved", "theorems": ["Verif.Props.structured_file_names", "Verif.Props.structured_file_broken", "Verif.Props.namedAs_total", "Verif.Props.dotted_directory_loses_suffix"], "note": "structured_file_names covers every directory path (namedAs_total)."},
 {"property": "C54", "status": "proved", "theorems": ["Verif.Props.generate_unseeded", "Verif.Props.negative_count", "Verif.Props.dummy_generates", "Verif.Props.generate_unlimited"], "note": "For both generators, including the exceptions."},
 {"property": "C55", "status": "proved", "theorems": ["Verif.Props.random_reaches", "Verif.Props.random_exactly", "Verif.Props.random_reaches_list"], "note": "Outcomes of the draws are an explicit list; Could is the grammar with the side conditions (weights, no cyclical part, no self-reference)."},
 {"property": "C56", "status": "proved", "theorems": ["Verif.Props.weighted_values_in_turn", "Verif.Props.equal_values_in_turn"], "note": "For wildcards whose name and values are plain literals; fractions are drawn in tens, so a multiple of ten is provided."},
 {"property": "C57", "status": "proved", "theorems": ["Verif.Props.parsing_ends"], "note": "Python's recursion limit is not modelled."},
 {"property": "C58", "status": "proved", "theorems": ["Verif.Props.parsed_shape", "Verif.Props.parsed_variant"], "note": "Spec/Parsed.lean"},
 {"property": "C59", "status": "proved", "theorems": ["Verif.Props.line_comments_ignored"], "note": "Comments in plain text."},
 {"property": "C60", "status": "proved", "theorems": ["Verif.Props.text_and_command_alike", "Verif.Props.text_sampling_sound"], "note": "A template of comments only is an exception of text_and_command_alike, shown beside it: its text gives an empty prompt, its command none."},
 {"property": "C61", "status": "proved", "theorems": ["Verif.Props.tabs_are_spaces", "Verif.Props.first_tab"], "note": ""},
 {"property": "C62", "status": "proved", "theorems": ["Verif.Props.parser_cache_transparent"], "note": ""},
 {"property": "C63", "status": "proved", "theorems": ["Verif.Props.shelf_of_files", "Verif.Props.files_decide_prompts", "Verif.Props.files_decide_rest", "Verif.Props.history_does_not_matter", "Verif.Props.wildcards_readable"], "note": "Whole system: modelled parser, engine and wildcard manager together. Shuffling must be off (with shuffling the order of values is random, C27/C29) and the files unchanged since the cache was cleared."},
 {"property": "C64", "status": "proved", "theorems": ["Verif.Props.prompts_from_files", "Verif.Props.shuffled_prompts_from_files", "Verif.Props.shuffled_prompts_from_text"], "note": "Any usable delimiters (C68); templates without tabs, as in C49/C60. shuffled_prompts_from_files holds for every prompt and every parser configuration."},
 {"property": "C65", "status": "proved", "theorems": ["Verif.Props.seeds_reproduce"], "note": "For templates that remember nothing between prompts; for others it is false, see C14 (seed_does_not_decide)."},
 {"property": "C66", "status": "proved", "theorems": ["Verif.Props.combinatorial_lists_files", "Verif.Props.lists_unique", "Verif.Props.plain_lists"], "note": "combinatorial_lists_files composes the modelled parser (C49), the manager (C63) and C51. lists_unique: the relation of Spec/Lists.lean is a function. plain_lists: it extends the function of C01. Missing wildcards and random or cyclical parts repeat for ever and are excluded. Any usable delimiters (C68)."},
 {"property": "C67", "status": "proved", "theorems": ["Verif.Props.comments_before", "Verif.Props.comments_parsed_alike", "Verif.Props.comments_sampled_alike", "Verif.Props.comment_between_texts"], "note": "Spec/Comments.lean removes comments and optional white space. Comments in the places where Spec/Syntax.lean allows them: not directly after text with // or /* (they belong to the text there), not in wildcard paths. Any usable delimiters (C68), except comments_before, which is for the default ones."},
 {"property": "C68", "status": "proved", "theorems": ["Verif.Props.parse_source_marks", "Verif.Props.marks_alike", "Verif.Props.marks_unambiguous", "Verif.Props.marked_text_and_command_alike", "Verif.Props.default_marks_usable"], "note": "`Spec.Marks.usable` says which marks can be told apart, `Spec.ok` with the marks which templates are unambiguous. C49 is the case of the default marks."},
 {"property": "C69", "status": "proved", "theorems": ["Verif.Props.unclosed_marks", "Verif.Props.wraps_rejected", "Verif.Props.assignments_rejected"], "note": "For all usable marks whose variable and wrap ends are not excluded from texts inside parts (`Marks.closes` false)."},
 {"property": "C70", "status": "proved", "theorems": ["Verif.Props.random_chances", "Verif.Props.chances_total", "Verif.Props.prompt_probability", "Verif.Props.chances_unique", "Verif.Props.choice_of_texts", "Verif.Props.random_chances_files", "Verif.Props.prompt_probability_files"], "note": "ChancePrompt (Spec/Chances) gives the distribution; random_chances divides all outcomes of the draws into events with the product of the draws' chances; prompt_probability turns it into probabilities for every fair source (Spec/Fair); fair_tape shows that there is one.; chances are those of weights added and multiplied without rounding, compare C86. From text and files with any usable delimiters (C68)."},
 {"property": "C71", "status": "proved", "theorems": ["Verif.Props.random_independent", "Verif.Props.prompts_probability", "Verif.Props.prompts_probability_files"], "note": "memoryless templates (Spec/Memoryless, as in C14); an example computes the probability of a list of three prompts with a fair source; chances are those of weights added and multiplied without rounding, compare C86. From text and files with any usable delimiters (C68)."},
 {"property": "C72", "status": "proved", "theorems": ["Verif.Props.users_are_alone", "Verif.Props.other_users_do_not_matter", "Verif.Props.seeded_users_repeat", "Verif.Props.process_generators"], "note": "One manager, any number of random objects; shuffling off, files unchanged."},
 {"property": "C73", "status": "proved", "theorems": ["Verif.Props.iterators_do_not_interfere", "Verif.Props.iterators_give_their_prompts"], "note": "Iterators are advanced between calls, in any order."},
 {"property": "C74", "status": "proved", "theorems": ["Verif.Props.methods_need_symbols", "Verif.Props.no_tilde_no_randomness", "Verif.Props.no_tilde_no_seed", "Verif.Props.no_tilde_no_interference"], "note": "For every parser configuration; the last two from text and files."},
 {"property": "C75", "status": "proved", "theorems": ["Verif.Props.no_new_characters", "Verif.Props.no_new_characters_from_files"], "note": "Tabs are expanded to spaces by the parser, the comma is the default separator."},
 {"property": "C76", "status": "proved", "theorems": ["Verif.Props.accepted_in_grammar", "Verif.Props.unclosed_rejected"], "note": "Spec/Grammar.lean is a liberal grammar (which texts may be read as which commands, without priorities); C05/C58/C59 say which reading is taken for unambiguous templates."},
 {"property": "C77", "status": "proved", "theorems": ["Verif.Props.exceptions_have_causes", "Verif.Props.no_cause_no_exception", "Verif.Props.acyclic_no_recursion", "Verif.Props.key_names_variable", "Verif.Props.runtime_barren"], "note": "causes in Spec/Causes.lean; each is shown to be one by an example; a cause need not lead to an exception (sampling may never reach it)"},
 {"property": "C78", "status": "proved", "theorems": ["Verif.Props.text_not_implemented", "Verif.Props.text_runtime", "Verif.Props.text_exceptions", "Verif.Props.exceptions_from_files"], "note": "variables of the context and the value for unknown variables must be such as the parser gives"},
 {"property": "C79", "status": "proved", "theorems": ["Verif.Props.hangs_have_causes", "Verif.Props.no_cause_no_hang", "Verif.Props.no_cause_prompts", "Verif.Props.chain_needs_wildcard", "Verif.Props.random_without_wildcards", "Verif.Props.text_hangs", "Verif.Props.hangs_from_files"], "note": "causes in Spec/Hangs.lean; examples show that templates with them do hang; a cause need not lead to a hang"},
 {"property": "C80", "status": "proved", "theorems": ["Verif.Props.combinatorial_ends", "Verif.Props.combinatorial_without_wildcards", "Verif.Props.combinatorial_text_ends", "Verif.Props.combinatorial_files_end"], "note": "the number of prompts is not stated here; see C01 and C51 for which prompts they are"},
 {"property": "C81", "status": "proved", "theorems": ["Verif.Props.names_listed", "Verif.Props.get_file_by_name", "Verif.Props.get_values_of_file", "Verif.Props.get_all_values_texts"], "note": "writes and edits of files from outside are excluded between clear_cache() and the call; see C33 for writes"},
 {"property": "C82", "status": "proved", "theorems": ["Verif.Props.index_items", "Verif.Props.sum_of_values", "Verif.Props.shuffled_values"], "note": "weights are rationals"},
 {"property": "C83", "status": "proved", "theorems": ["Verif.Props.built_variant", "Verif.Props.built_variant_written", "Verif.Props.built_sequence_combinatorial", "Verif.Props.built_sequence", "Verif.Props.added_literals", "Verif.Props.built_sequence_parts"], "note": "an example shows that combinatorial and cyclical sequences differ when a text begins with the separator"},
 {"property": "C84", "status": "proved", "theorems": ["Verif.Props.cyclical_repeats", "Verif.Props.cyclical_files"], "note": "templates with a closed form are those of C11: no random part, no wraps (not supported by the cyclical sampler). Any usable delimiters (C68)."},
 {"property": "C85", "status": "proved", "theorems": ["Verif.Props.any_method_texts", "Verif.Props.combinatorial_texts", "Verif.Props.random_iff_texts", "Verif.Props.random_iff_combinatorial_files", "Verif.Props.any_method_listed", "Verif.Props.random_iff_combinatorial"], "note": "The first four theorems cover wildcards, variables, assignments and whitespace squashing (Spec/SameTexts), the last two are for plain templates; an example shows that the condition on choices is needed."},
 {"property": "C86", "status": "proved", "theorems": ["Verif.Props.float_draw", "Verif.Props.float_share", "Verif.Props.tiny_weight_never_drawn"], "note": "numbers with p significant bits, exponents without limits (neither overflow nor subnormal numbers); all theorems about random draws in which the environment is arbitrary also hold for this arithmetic, since it is a case of Arith (floats)"},
 {"property": "C87", "status": "proved", "theorems": ["Verif.Props.cyclical_parts_keep_step", "Verif.Props.cyclical_parts_of_combinations", "Verif.Props.random_beside_cyclical", "Verif.Props.combinatorial_beside_cyclical", "Verif.Props.cyclical_parts_files", "Verif.Props.cyclical_combinations_files"], "note": "General sequences, and the two documented shapes as corollaries; the _files theorems compose them with the modelled parser (any usable delimiters, C68) and the manager (C63)."},
 {"property": "C88", "status": "proved", "theorems": ["Verif.Props.shuffle_uniform", "Verif.Props.shuffle_every_order", "Verif.Props.shuffle_reaches", "Verif.Props.get_values_equally_likely", "Verif.Props.choice_uniform", "Verif.Props.weighted_choice_proportional", "Verif.Props.lucky_uniform"], "note": "Fair (Spec/Fair) as for C70; weights added without rounding, compare C86."},
 {"property": "C89", "status": "proved", "theorems": ["Verif.Props.keywords_found", "Verif.Props.keywords_asked", "Verif.Props.keywords_without_spacy"], "note": "spaCy is arbitrary; a loaded model answers the same for the same text (keywords_found), or does not raise (keywords_asked)."},
 {"property": "C90", "status": "proved", "theorems": ["Verif.Props.links_isDir", "Verif.Props.links_read", "Verif.Props.links_walk", "Verif.Props.links_collections", "Verif.Props.links_replaced", "Verif.Props.links_opened", "Verif.Props.unopenable_raises", "Verif.Props.disk_collections", "Verif.Props.disk_read"], "note": "withoutLinks is characterised by links_replaced in terms of where paths lead (Leads). Writing through links is not modelled; a manager keeps the file system it was given."},
 {"property": "C91", "status": "proved", "theorems": ["Verif.Props.decode_spec", "Verif.Props.strict_spec", "Verif.Props.text_decoded", "Verif.Props.junk_left_out", "Verif.Props.lines_alone", "Verif.Props.written_text", "Verif.Props.byte_order_mark", "Verif.Props.bytes_collections", "Verif.Props.bytes_read"], "note": "UTF-8 (the default encoding); the bytes of a character are those of Lean's String.utf8EncodeChar. Python strings with surrogates, which cannot be written, are not represented."},
 {"property": "C92", "status": "proved", "theorems": ["Verif.Props.entries_simplified", "Verif.Props.entry_of_value", "Verif.Props.lookup_raises", "Verif.Props.sampling_raises", "Verif.Props.lookup_as_strings", "Verif.Props.lookup_distinct", "Verif.Props.lookup_order"], "note": "Model/Entries: lookups of a wildcard that is not in the cache, with list collections; hash and equality of Python for null, booleans, numbers and strings."},
 {"property": "C93", "status": "proved", "theorems": ["Verif.Props.interrupted_write", "Verif.Props.interrupted_values", "Verif.Props.finished_write", "Verif.Props.interrupted_collections", "Verif.Props.reads_after_failures", "Verif.Props.failed_write_raises"], "note": "Crash points are the prefixes of the bytes written, after the file has been emptied or made; buffering by the operating system in another order than written is not modelled."},
 {"property": "C94", "status": "proved", "theorems": ["Verif.Props.only_asked_wildcards_matter", "Verif.Props.same_wildcards_same_prompts", "Verif.Props.unused_files_do_not_matter", "Verif.Props.rewriting_unused_file"], "note": "Shuffling by the manager is off (its order comes from another random generator)."},
 {"property": "C95", "status": "proved", "theorems": ["Verif.Props.editing_text_keeps_choices", "Verif.Props.editing_template_keeps_choices", "Verif.Props.replacing_text", "Verif.Props.editing_text_keeps_count"], "note": ""},
 {"property": "C96", "status": "proved", "theorems": ["Verif.Props.spelling_out_texts", "Verif.Props.spelling_out_random", "Verif.Props.spelling_out_chances", "Verif.Props.spelling_out_cyclical", "Verif.Props.spelling_out_combinatorial", "Verif.Props.written_out_texts", "Verif.Props.written_out_chances", "Verif.Props.written_out_cycles", "Verif.Props.written_out_all", "Verif.Props.written_out_lists"], "note": ""},
 {"property": "C97", "status": "proved", "theorems": ["Verif.Props.renaming_variables", "Verif.Props.renaming_in_templates", "Verif.Props.rename_unmentioned", "Verif.Props.meaning_rename"], "note": "Variables in the names of wildcards are not renamed: there a variable without a value stands for its own name, so its name does matter."},
 {"property": "C98", "status": "proved", "theorems": ["Verif.Props.weights_multiplied", "Verif.Props.exact_proportional", "Verif.Props.floats_proportional", "Verif.Props.proportions_decide", "Verif.Props.proportions_probability"], "note": ""},
 {"property": "C99", "status": "proved", "theorems": ["Verif.Props.order_permutes", "Verif.Props.order_permutes_prompts", "Verif.Props.order_keeps_chances", "Verif.Props.order_keeps_probabilities"], "note": ""},
 {"property": "C100", "status": "proved", "theorems": ["Verif.Props.copies_keep_list", "Verif.Props.copies_keep_prompts", "Verif.Props.copies_keep_chances", "Verif.Props.copies_keep_probabilities"], "note": ""},
 {"property": "C101", "status": "proved", "theorems": ["Verif.Props.nested_keep_prompts", "Verif.Props.nested_keep_list", "Verif.Props.nested_keep_chances", "Verif.Props.nested_keep_probabilities"], "note": ""},
 {"property": "C102", "status": "proved", "theorems": ["Verif.Props.grouped_keep_prompts", "Verif.Props.grouped_keep_list", "Verif.Props.grouped_keep_chances", "Verif.Props.grouped_keep_probabilities"], "note": ""},
 {"property": "C103", "status": "proved", "theorems": ["Verif.Props.common_keep_prompts", "Verif.Props.common_keep_list", "Verif.Props.common_keep_chances", "Verif.Props.common_keep_probabilities", "Verif.Props.laws_keep_prompts", "Verif.Props.laws_keep_list", "Verif.Props.laws_keep_chances", "Verif.Props.laws_keep_probabilities"], "note": ""},
 {"property": "C104", "status": "proved", "theorems": ["Verif.Props.inlining_keeps_list", "Verif.Props.inlining_keeps_prompts", "Verif.Props.inlining_keeps_cycles", "Verif.Props.inlining_keeps_chances", "Verif.Props.inlining_keeps_probabilities"], "note": ""},
 {"property": "C105", "status": "proved", "theorems": ["Verif.Props.bits_below_uniform", "Verif.Props.bits_unit_near", "Verif.Props.bits_independent", "Verif.Props.bits_nearly_fair", "Verif.Props.prompt_probability_near", "Verif.Props.prompts_probability_near", "Verif.Props.bits_shuffle_uniform", "Verif.Props.bits_choice_uniform", "Verif.Props.bits_weighted_choice_near"], "note": ""},
 {"property": "C106", "status": "proved", "theorems": ["Verif.Props.every_pattern_valid", "Verif.Props.first_fit_suffices", "Verif.Props.brackets_keep_apart", "Verif.Props.regex_follows_shell"], "note": ""},
 {"property": "C107", "status": "proved", "theorems": ["Verif.Props.circular_gives_nothing", "Verif.Props.circular_files_give_nothing"], "note": ""},
 {"property": "C108", "status": "proved", "theorems": ["Verif.Props.double_draw", "Verif.Props.double_weighted_choice", "Verif.Props.double_choice", "Verif.Props.double_wildcard", "Verif.Props.double_choice_written", "Verif.Props.double_wildcard_written"], "note": "exponents without limits (neither overflow nor subnormal numbers), as in C86; choices of one among texts, wildcards of plain values of unequal weights (equal ones: bits_choice_uniform in C105)"},
 {"property": "C109", "status": "proved", "theorems": ["Verif.Props.more_reachable", "Verif.Props.more_options", "Verif.Props.more_prompts", "Verif.Props.more_prompts_listed", "Verif.Props.more_values", "Verif.Props.more_values_listed", "Verif.Props.more_values_files"], "note": "more_reachable is for all prompts that random sampling could give in the sense of Spec.Reachable (C55); the others start from prompts that were returned, for templates of literals, sequences, choices and wraps or those of C85"},
 {"property": "C110", "status": "proved", "theorems": ["Verif.Props.lone_wildcard", "Verif.Props.lone_wildcard_ignores", "Verif.Props.lone_wildcard_empty", "Verif.Props.lone_keep_prompts", "Verif.Props.lone_keep_list", "Verif.Props.lone_keep_chances", "Verif.Props.lone_keep_probabilities"], "note": "inside a template the replacement is not made in what is assigned to variables, and combinatorial prompts are those of the templates of C85"},
 {"property": "C111", "status": "proved", "theorems": ["Verif.Props.renaming_wildcards", "Verif.Props.renaming_wildcards_in_templates", "Verif.Props.renaming_wildcards_in_files"], "note": "a wildcard without values stands for its own name, so it keeps that name; names made from variables or choices keep their meaning; values are in the same order after the renaming (sorting by text may have to be off)"},
 {"property": "C112", "status": "proved", "theorems": ["Verif.Props.written_is_read", "Verif.Props.unencodable_empties", "Verif.Props.values_stay", "Verif.Props.write_answers", "Verif.Props.utf8_faithful", "Verif.Props.ascii_faithful", "Verif.Props.latin1_faithful", "Verif.Props.manager_values", "Verif.Props.manager_write"], "note": "encodings Python does not know are not represented"},
 {"property": "C113", "status": "proved", "theorems": ["Verif.Props.write_through", "Verif.Props.write_new", "Verif.Props.write_fails", "Verif.Props.plain_write"], "note": "permissions are one flag per file (locked); directories can always be written in"},
 {"property": "C114", "status": "proved", "theorems": ["Verif.Props.never_ends", "Verif.Props.not_both", "Verif.Props.stuck", "Verif.Props.never_ends_files"], "note": "the marked parts at the leaves are the ones described by Spec.NeverEnds; stuck is a worked case for the hypotheses"},
 {"property": "C115", "status": "proved", "theorems": ["Verif.Props.at_most", "Verif.Props.never_answered", "Verif.Props.starving_is_neither", "Verif.Props.never_answered_files", "Verif.Props.starved", "Verif.Props.lost_option", "Verif.Props.nested_starved"], "note": "choices of more than one option at a time are not described; starved, lost_option and nested_starved are worked cases for the hypotheses"}
]}
