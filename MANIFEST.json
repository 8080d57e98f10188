{
 "claims": [
  {
   "property": "C01",
   "status": "proved",
   "theorems": [
    "Verif.Compression.C01_multibyte_roundtrip"
   ],
   "note": "Round trip through both the FILE and the stream functions for every value the writer accepts."
  },
  {
   "property": "C02",
   "status": "proved",
   "theorems": [
    "Verif.Compression.C02_multibyte_refusal",
    "Verif.Compression.C02_multibyte_length"
   ],
   "note": "Refusal (exit) and encoded length settled for every 32-bit value."
  },
  {
   "property": "C03",
   "status": "proved",
   "theorems": [
    "Verif.Compression.C03_prefix_free",
    "Verif.Compression.C03_unique_decoding"
   ],
   "note": "Prefix-freeness and unique decoding of sequences."
  },
  {
   "property": "C04",
   "status": "proved",
   "theorems": [
    "Verif.Compression.C04_string_roundtrip",
    "Verif.Compression.C04_string_roundtrip_units"
   ],
   "note": "Strings of code points, and UTF-16 units, round-trip."
  },
  {
   "property": "C05",
   "status": "proved",
   "theorems": [
    "Verif.Compression.C05_weight_words_roundtrip",
    "Verif.Compression.C05_weight_roundtrip",
    "Verif.Compression.C05_weight_exact_iff",
    "Verif.Compression.C05_weight_error",
    "Verif.Compression.C05_exact_all_false"
   ],
   "note": "The bit-exact claim is false (C05_exact_all_false); what is read back, the exact condition and the error bound are proved."
  },
  {
   "property": "C06",
   "status": "proved",
   "theorems": [
    "Verif.BinIO.C06_transducer_features",
    "Verif.BinIO.C06_transducer_truncated",
    "Verif.BinIO.C06_set_features",
    "Verif.Compression.C06_feature_word_roundtrip",
    "Verif.Compression.C06_feature_word_truncated"
   ],
   "note": "Feature words of single transducers (both loaders, any continuation) and of sets; truncation inside the word. Pipes, where fgetpos fails, are not modelled."
  },
  {
   "property": "C07",
   "status": "proved",
   "theorems": [
    "Verif.Serialiser.C07_integers_roundtrip"
   ],
   "note": "All integer widths and both signs as the code serialises them."
  },
  {
   "property": "C08",
   "status": "proved",
   "theorems": [
    "Verif.Serialiser.C08_integers_truncation",
    "Verif.Serialiser.C08_oversized_is_ub"
   ],
   "note": "Truncated and oversized integers."
  },
  {
   "property": "C09",
   "status": "proved",
   "theorems": [
    "Verif.Serialiser.C09_pair",
    "Verif.Serialiser.C09_vector",
    "Verif.Serialiser.C09_map",
    "Verif.Serialiser.C09_multimap",
    "Verif.Serialiser.C09_nested"
   ],
   "note": "Pairs, vectors, maps, multimaps, and arbitrary nesting."
  },
  {
   "property": "C10",
   "status": "partial",
   "theorems": [
    "Verif.Serialiser.C10_unit_survives_iff",
    "Verif.Serialiser.C10_string_roundtrip_false",
    "Verif.Serialiser.C10_string_roundtrip_partial"
   ],
   "note": "False for code units above 127 (C10_string_roundtrip_false); exact set of surviving units and round trip for them proved."
  },
  {
   "property": "C11",
   "status": "partial",
   "theorems": [
    "Verif.Alphabet.C11_serialise_false",
    "Verif.Alphabet.C11_more_tags_than_pairs_ub",
    "Verif.Alphabet.C11_serialise_partial"
   ],
   "note": "False (C11_serialise_false): pair codes get lost, and with more tags than pairs the loop reads outside the vector (C11_more_tags_than_pairs_ub); what does survive is proved."
  },
  {
   "property": "C12",
   "status": "proved",
   "theorems": [
    "Verif.Alphabet.C12_codes_stay",
    "Verif.Alphabet.C12_after_request"
   ],
   "note": "Every history of includeSymbol, operator()(x,y) and createLoopbackSymbols."
  },
  {
   "property": "C13",
   "status": "proved",
   "theorems": [
    "Verif.Alphabet.C13_codes_unambiguous",
    "Verif.Alphabet.C13_get_symbol"
   ],
   "note": "Both numberings of a reachable alphabet."
  },
  {
   "property": "C14",
   "status": "proved",
   "theorems": [
    "Verif.Alphabet.C14_binary_roundtrip",
    "Verif.Alphabet.C14_needs_brackets"
   ],
   "note": "Round trip with arbitrary following bytes, for alphabets whose tags are bracketed and whose sizes fit the format; C14_needs_brackets shows the first condition is needed."
  },
  {
   "property": "C15",
   "status": "proved",
   "theorems": [
    "Verif.Alphabet.C15_loopback"
   ],
   "note": "Both sides, with and without tags."
  },
  {
   "property": "C16",
   "status": "proved",
   "theorems": [
    "Verif.Alphabet.C16_same_symbol",
    "Verif.Alphabet.C16_same_alphabet"
   ],
   "note": "Letters and tags, equal and different alphabets."
  },
  {
   "property": "C17",
   "status": "partial",
   "theorems": [
    "Verif.Alphabet.C17_split_loses_nothing",
    "Verif.Alphabet.C17_view_before_backslash",
    "Verif.Alphabet.C17_tokenize_partial",
    "Verif.Alphabet.C17_tokenize_false",
    "Verif.Alphabet.C17_unknown_tag"
   ],
   "note": "Nothing is lost in splitting; tokenize is correct for known tags and BMP letters and false otherwise (C17_tokenize_false, C17_unknown_tag)."
  },
  {
   "property": "C18",
   "status": "proved",
   "theorems": [
    "Verif.Fst.C18_well_formed",
    "Verif.Fst.C18_new_states_fresh"
   ],
   "note": "Every history of building operations; setInitial does not exist in the API."
  },
  {
   "property": "C19",
   "status": "proved",
   "theorems": [
    "Verif.Fst.C19_word_list"
   ],
   "note": "Exact language of a word list."
  },
  {
   "property": "C20",
   "status": "proved",
   "theorems": [
    "Verif.Fst.C20_refuses_iff",
    "Verif.Fst.C20_adds_exactly"
   ],
   "note": "linkStates."
  },
  {
   "property": "C21",
   "status": "proved",
   "theorems": [
    "Verif.Fst.C21_closure"
   ],
   "note": "closure, termination included."
  },
  {
   "property": "C22",
   "status": "proved",
   "theorems": [
    "Verif.Fst.C22_closure_all"
   ],
   "note": "closure_all, termination included."
  },
  {
   "property": "C23",
   "status": "proved",
   "theorems": [
    "Verif.Fst.C23_join_finals",
    "Verif.Fst.C23_join_finals_accepts"
   ],
   "note": "joinFinals: language, one final state, exit condition."
  },
  {
   "property": "C24",
   "status": "proved",
   "theorems": [
    "Verif.Fst.C24_optional",
    "Verif.Fst.C24_one_or_more",
    "Verif.Fst.C24_zero_or_more"
   ],
   "note": "optional, oneOrMore, zeroOrMore."
  },
  {
   "property": "C25",
   "status": "partial",
   "theorems": [
    "Verif.Fst.C25_insert_partial",
    "Verif.Fst.C25_insert_false"
   ],
   "note": "False for an inserted transducer whose only final state is weighted (C25_insert_false); proved otherwise."
  },
  {
   "property": "C26",
   "status": "partial",
   "theorems": [
    "Verif.Fst.C26_union_exact",
    "Verif.Fst.C26_union_partial",
    "Verif.Fst.C26_union_exit",
    "Verif.Fst.C26_union_false"
   ],
   "note": "False when an arc enters the initial state of the receiver (C26_union_false); exact language in general (C26_union_exact) and the union otherwise."
  },
  {
   "property": "C27",
   "status": "partial",
   "theorems": [
    "Verif.Fst.C27_reverse_partial",
    "Verif.Fst.C27_reverse_accepts_partial",
    "Verif.Fst.C27_reverse_exit",
    "Verif.Fst.C27_reverse_false"
   ],
   "note": "False for a lone weighted final state (C27_reverse_false); proved otherwise, exit condition included."
  },
  {
   "property": "C28",
   "status": "partial",
   "theorems": [
    "Verif.Fst.C28_deterministic",
    "Verif.Fst.C28_determinize_partial",
    "Verif.Fst.C28_determinize_paths",
    "Verif.Fst.C28_determinize_false"
   ],
   "note": "Termination and determinism for all well-formed transducers; language for weightless final states; false with final weights (C28_determinize_false)."
  },
  {
   "property": "C29",
   "status": "partial",
   "theorems": [
    "Verif.Fst.C29_no_finals",
    "Verif.Fst.C29_minimize_partial",
    "Verif.Fst.C29_all_states_useful",
    "Verif.Fst.C29_minimize_accepts_partial",
    "Verif.Fst.C29_minimize_false"
   ],
   "note": "False for a lone weighted final state; otherwise language preserved, and the program is terminated exactly when final states exist but nothing is accepted."
  },
  {
   "property": "C30",
   "status": "partial",
   "theorems": [
    "Verif.Fst.C30_minimal_partial",
    "Verif.Fst.C30_minimal_finite",
    "Verif.Fst.C30_minimal_back_to_start",
    "Verif.Fst.C30_minimal_false"
   ],
   "note": "False: one extra state is possible (C30_minimal_false). Proved: at most one extra state in general, and exactly minimal for languages of bounded word length or when an arc returns to the initial state."
  },
  {
   "property": "C31",
   "status": "partial",
   "theorems": [
    "Verif.Fst.C31_dot_star_partial",
    "Verif.Fst.C31_dot_star_weightless_partial",
    "Verif.Fst.C31_dot_star_false"
   ],
   "note": "False when arcs leave a final state (C31_dot_star_false); proved otherwise."
  },
  {
   "property": "C32",
   "status": "proved",
   "theorems": [
    "Verif.Fst.C32_invert"
   ],
   "note": "Pair paths, string relation with weights, and exact restoration by a second inversion."
  },
  {
   "property": "C33",
   "status": "proved",
   "theorems": [
    "Verif.Fst.C33_deleteSymbols",
    "Verif.Fst.C33_deleteSymbols_words",
    "Verif.Fst.C33_epsilonizeSymbols",
    "Verif.Fst.C33_epsilonizeSymbols_words"
   ],
   "note": "Both operations, path level and word level; termination of epsilonizeSymbols is part of the statement."
  },
  {
   "property": "C34",
   "status": "proved",
   "theorems": [
    "Verif.Fst.C34_applyACX"
   ],
   "note": "All tables of equivalents, path level with weights."
  },
  {
   "property": "C35",
   "status": "partial",
   "theorems": [
    "Verif.Fst.C35_updateAlphabet_pairs",
    "Verif.Fst.C35_updateAlphabet_symbols_partial",
    "Verif.Fst.C35_updateAlphabet_symbols_false"
   ],
   "note": "Proved for pair labels; for single-symbol labels (lt-append --single) the function reads outside the pair table (C35_updateAlphabet_symbols_false) and only the case where that does not happen is proved."
  },
  {
   "property": "C36",
   "status": "proved",
   "theorems": [
    "Verif.BinIO.C36_write_read",
    "Verif.BinIO.C36_roundtrip",
    "Verif.BinIO.C36_exact",
    "Verif.BinIO.C36_negative_label"
   ],
   "note": "If writing succeeds, reading restores the transducer in any context (weights cut to 30 significant bits, exact when representable); writing succeeds in the stated range and otherwise ends the process."
  },
  {
   "property": "C37",
   "status": "proved",
   "theorems": [
    "Verif.BinIO.C37_serialise"
   ],
   "note": "Exact restoration and detection of every truncation."
  },
  {
   "property": "C38",
   "status": "proved",
   "theorems": [
    "Verif.BinIO.C38_loaders_agree",
    "Verif.BinIO.C38_written"
   ],
   "note": "All byte streams, not only written ones: same graph, same rest, throws on the same streams; the cases where only the run-time loader has undefined behaviour are characterised."
  },
  {
   "property": "C39",
   "status": "partial",
   "theorems": [
    "Verif.State.C39_loaded_states",
    "Verif.State.C39_from_bytes",
    "Verif.State.C39_loaded_ends",
    "Verif.State.C39_run",
    "Verif.State.C39_states",
    "Verif.State.C39_final",
    "Verif.State.C39_empty_symbol",
    "Verif.State.C39_init_ends",
    "Verif.State.C39_step_ends",
    "Verif.State.C39_run_ends",
    "Verif.State.C39_cycle_false",
    "Verif.State.C39_weight_partial",
    "Verif.State.C39_weight_false"
   ],
   "note": "States and outputs exactly for every finite or infinite graph where the closures end; they end without empty cycles (C39_run_ends) and not with a reachable one (C39_cycle_false). Weights: exact except those on arcs with empty input and output, which are lost (C39_weight_false). From file bytes to answers: C39_from_bytes."
  },
  {
   "property": "C40",
   "status": "proved",
   "theorems": [
    "Verif.State.C40_empty_symbol",
    "Verif.State.C40_step",
    "Verif.State.C40_step_alternative",
    "Verif.State.C40_step_careful",
    "Verif.State.C40_step_two",
    "Verif.State.C40_step_set",
    "Verif.State.C40_step_case",
    "Verif.State.C40_step_case_two",
    "Verif.State.C40_step_optional",
    "Verif.State.C40_step_override",
    "Verif.State.C40_step_case_override",
    "Verif.State.C40_override_twice_false"
   ],
   "note": "All step variants, with multiplicities by position for the plain ones; the override variant repeats states, exponentially (C40_override_twice_false)."
  },
  {
   "property": "C41",
   "status": "partial",
   "theorems": [
    "Verif.State.C41_best",
    "Verif.State.C41_count",
    "Verif.State.C41_exactly",
    "Verif.State.C41_classes_partial",
    "Verif.State.C41_classes_false",
    "Verif.State.C41_no_duplicates",
    "Verif.State.C41_printed",
    "Verif.State.C41_distinct_false",
    "Verif.State.C41_collected",
    "Verif.State.C41_case",
    "Verif.State.C41_output"
   ],
   "note": "Prefix of a weight-sorted order, count, no duplicates. The weight-class limit counts analyses with non-zero weight instead of distinct weights (C41_classes_false) and duplicates use up the limit (C41_distinct_false)."
  },
  {
   "property": "C42",
   "status": "partial",
   "theorems": [
    "Verif.State.C42_last_part",
    "Verif.State.C42_prune",
    "Verif.State.C42_limit_false",
    "Verif.State.C42_ends_false",
    "Verif.State.C42_forbidden",
    "Verif.State.C42_restart",
    "Verif.State.C42_restart_false"
   ],
   "note": "Exact filters; the element count ignores separators at both ends of the sequence and the limit INT_MAX keeps unmarked states (C42_limit_false, C42_ends_false); restartFinals does not end when the required symbol is the separator (C42_restart_false)."
  },
  {
   "property": "C43",
   "status": "proved",
   "theorems": [
    "Verif.SortedVec.C43_history",
    "Verif.SortedVec.C43_answers",
    "Verif.SortedVec.C43_intersects",
    "Verif.SortedVec.C43_canonical"
   ],
   "note": "All histories of operations against the mathematical set."
  },
  {
   "property": "C44",
   "status": "proved",
   "theorems": [
    "Verif.SortedVec.C44_search",
    "Verif.SortedVec.C44_search_unique"
   ],
   "note": "Binary search with the code's own arithmetic."
  },
  {
   "property": "C45",
   "status": "proved",
   "theorems": [
    "Verif.Buffer.C45_stream",
    "Verif.Buffer.C45_diff",
    "Verif.Buffer.C45_restore_false",
    "Verif.Buffer.C45_capacity_false",
    "Verif.Buffer.C45_back_zero_false",
    "Verif.Buffer.C45_copy_false",
    "Verif.Buffer.C45_add_void_false"
   ],
   "note": "Any sequence of operations that stays inside the documented use gives the stream semantics and differences exactly (C45_stream, C45_diff). Refuted outside it: restoring a position (C45_restore_false), going back by the capacity (C45_capacity_false), back of nothing (C45_back_zero_false), copying memory (C45_copy_false) and the argument-less add (C45_add_void_false)."
  },
  {
   "property": "C46",
   "status": "partial",
   "theorems": [
    "Verif.Match.C46_run",
    "Verif.Match.C46_run_single",
    "Verif.Match.C46_step",
    "Verif.Match.C46_capacity_false",
    "Verif.Match.C46_nondeterministic_false",
    "Verif.Match.C46_from_transducer"
   ],
   "note": "Alive nodes and least rule exactly, for every history within the capacity; single-symbol histories always are. Refuted when more than 1023 nodes are alive (C46_capacity_false) and for nondeterministic tables (C46_nondeterministic_false). C46_from_transducer starts from the transducer."
  },
  {
   "property": "C47",
   "status": "partial",
   "theorems": [
    "Verif.Regex.C47_language_partial",
    "Verif.Regex.C47_plain",
    "Verif.Regex.C47_accepted_partial",
    "Verif.Regex.C47_outcomes",
    "Verif.Regex.C47_refused_partial",
    "Verif.Regex.C47_negated_false",
    "Verif.Regex.C47_trailing_false",
    "Verif.Regex.C47_undefined_false"
   ],
   "note": "Exact relation for every well-formed expression with any alphabet; without negated classes this is the textbook meaning. False for negated classes (C47_negated_false) and for trailing input after an unmatched parenthesis (C47_trailing_false); two undefined inputs (C47_undefined_false)."
  },
  {
   "property": "C48",
   "status": "proved",
   "theorems": [
    "Verif.Compiler.C48_schedules"
   ],
   "note": "Threads as interleavings of steps; each thread works on one section."
  },
  {
   "property": "C49",
   "status": "partial",
   "theorems": [
    "Verif.Product.C49_compose_partial",
    "Verif.Product.C49_weights",
    "Verif.Product.C49_anywhere_partial",
    "Verif.Product.C49_no_finals",
    "Verif.Product.C49_unknown_tag_false",
    "Verif.Product.C49_weights_false"
   ],
   "note": "C49_compose_partial: the composition succeeds; it relates x to z exactly when some y lies between, and with a sum of weights of the two transducers. Missing there: which of several possible sums (false in general, C49_weights_false). C49_weights gives exactly the sums when no two arcs compete. C49_anywhere_partial is the same for the anywhere mode. C49_unknown_tag_false: an output tag unknown to the receiving alphabet becomes the empty symbol."
  },
  {
   "property": "C50",
   "status": "partial",
   "theorems": [
    "Verif.Product.C50_only_removes",
    "Verif.Product.C50_joins",
    "Verif.Product.C50_plain",
    "Verif.Product.C50_weights",
    "Verif.Product.C50_no_finals",
    "Verif.Product.C50_group_weight_false",
    "Verif.Product.C50_queue_false",
    "Verif.Product.C50_join_false"
   ],
   "note": "C50_only_removes: for all coded well-formed transducers trimming succeeds and only keeps what was there, with the weight up to the trimmer's empty arcs and, with groups, a final weight (C50_group_weight_false shows that this happens). C50_joins: exactly what is kept without queues and groups, joins and compounds included; C50_plain and C50_weights: the same without joins and compounds, and its weights. C50_join_false: the parts before a join need not be accepted by the trimmer. C50_queue_false: with a queue arc at a state the other arcs of that state are compared with the wrong state of the trimmer."
  },
  {
   "property": "C51",
   "status": "partial",
   "theorems": [
    "Verif.Str.C51_pieces_exist",
    "Verif.Str.C51_pieces_unique",
    "Verif.Str.C51_pieces_sound",
    "Verif.Str.C51_split",
    "Verif.Str.C51_empty_delimiter_false",
    "Verif.Str.C51_join",
    "Verif.Str.C51_join_split",
    "Verif.Str.C51_join_split_unit",
    "Verif.Str.C51_join_split_false",
    "Verif.Str.C51_substitute",
    "Verif.Str.C51_substitute_empty_false",
    "Verif.Str.C51_split_escaped",
    "Verif.Str.C51_escape_split"
   ],
   "note": "Pieces by leftmost cuts exist, are unique, join to the string (C51_pieces_*); split, substitute, join and split_escaped computed exactly. Round trip for clean pieces; false otherwise (C51_join_split_false). With an empty delimiter or an empty text to replace the loops never end (C51_empty_delimiter_false, C51_substitute_empty_false)."
  },
  {
   "property": "C52",
   "status": "proved",
   "theorems": [
    "Verif.Str.C52_startswith",
    "Verif.Str.C52_endswith"
   ],
   "note": "Both tests, all lengths."
  },
  {
   "property": "C53",
   "status": "partial",
   "theorems": [
    "Verif.Merge.C53_protected",
    "Verif.Merge.C53_unescape",
    "Verif.Merge.C53_merge",
    "Verif.Merge.C53_unmerge",
    "Verif.Merge.C53_roundtrip",
    "Verif.Merge.C53_blank_false",
    "Verif.Merge.C53_unclosed_false",
    "Verif.Merge.C53_chunk_false"
   ],
   "note": "Escaping: exact. Merge and unmerge on every stream divided into units and spans, from the bytes. A backslash in a blank inside a span is lost (C53_blank_false), as is an unclosed span (C53_unclosed_false) and chunks (C53_chunk_false)."
  },
  {
   "property": "C54",
   "status": "proved",
   "theorems": [
    "Verif.Stream.C54_stream",
    "Verif.Stream.C54_cut_unit",
    "Verif.Stream.C54_uffff_false",
    "Verif.Stream.C54_unterminated_false"
   ],
   "note": "From the bytes of the file to the values after each call, with any alphabet. C54_cut_unit: a NUL inside a unit ends it and is reported. Outside the format: U+FFFF in a blank counts as end of file (C54_uffff_false) and text that ends inside a tag gets U+FFFF appended without an error (C54_unterminated_false)."
  },
  {
   "property": "C55",
   "status": "proved",
   "theorems": [
    "Verif.Input.C55_file",
    "Verif.Input.C55_valid_only",
    "Verif.Input.C55_invalid_throws",
    "Verif.Input.C55_truncated",
    "Verif.Input.C55_eof_value_false"
   ],
   "note": "Exact for texts, with the end-of-file flag; only valid UTF-8 accepted; truncation throws. The end-of-file value is a possible character (C55_eof_value_false)."
  },
  {
   "property": "C56",
   "status": "partial",
   "theorems": [
    "Verif.Compiler.C56_text_partial",
    "Verif.Compiler.C56_text_fresh",
    "Verif.Compiler.C56_weight_twice_false",
    "Verif.Compiler.C56_weight_lost_false",
    "Verif.Compiler.C56_weight_shared_false"
   ],
   "note": "The path for one text is proved in any receiving transducer. Weights of entries with several elements, of paradigms alone and of shared prefixes are refuted."
  },
  {
   "property": "C57",
   "status": "proved",
   "theorems": [
    "Verif.Expander.C57_length",
    "Verif.Expander.C57_append",
    "Verif.Expander.C57_pair"
   ],
   "note": "Exact, by index."
  },
  {
   "property": "C58",
   "status": "proved",
   "theorems": [
    "Verif.Att.C58_digits",
    "Verif.Att.C58_other",
    "Verif.Att.C58_cases",
    "Verif.Att.C58_empty_false"
   ],
   "note": "Every digit string that fits; all other texts. The empty text counts as 0 (C58_empty_false)."
  },
  {
   "property": "C59",
   "status": "partial",
   "theorems": [
    "Verif.BinIO.C59_roundtrip",
    "Verif.BinIO.C59_letter_set_false",
    "Verif.BinIO.C59_letter_set_partial"
   ],
   "note": "Proved for the overload taking a letter string; the overload taking a set of code points loses letters from U+10000 on (C59_letter_set_false), proved below that."
  },
  {
   "property": "C60",
   "status": "partial",
   "theorems": [
    "Verif.Pattern.C60_count",
    "Verif.Pattern.C60_count_empty",
    "Verif.Pattern.C60_at",
    "Verif.Pattern.C60_all",
    "Verif.Pattern.C60_leading_dot_false",
    "Verif.Pattern.C60_negative_false"
   ],
   "note": "Exact for patterns not starting with a dot and non-negative indices; false otherwise (C60_leading_dot_false, C60_negative_false)."
  },
  {
   "property": "C61",
   "status": "proved",
   "theorems": [
    "Verif.Alphabet.C61_symbols_where_left_is"
   ],
   "note": "All alphabets reachable by the operations of the class."
  },
  {
   "property": "C62",
   "status": "partial",
   "theorems": [
    "Verif.State.C62_unify_finals",
    "Verif.State.C62_loaded",
    "Verif.State.C62_no_room_false"
   ],
   "note": "Relation, weights and the single final state, provided the node vector has spare capacity; without it the pointers kept in the node set dangle (C62_no_room_false). For loaded files C62_loaded."
  },
  {
   "property": "C63",
   "status": "proved",
   "theorems": [
    "Verif.State.C63_pool",
    "Verif.State.C63_applies",
    "Verif.State.C63_run",
    "Verif.State.C63_copy_false"
   ],
   "note": "Any sequence of calls on two objects, in a memory model with allocation, release and the pool; copy called directly with a filled pool would use released memory (C63_copy_false), which operator= avoids."
  },
  {
   "property": "C64",
   "status": "proved",
   "theorems": [
    "Verif.Str.C64_merge",
    "Verif.Str.C64_assoc",
    "Verif.Str.C64_short"
   ],
   "note": "Contents, neutral element, associativity; short strings: C64_short."
  },
  {
   "property": "C65",
   "status": "partial",
   "theorems": [
    "Verif.Str.C65_trim",
    "Verif.Str.C65_trim_space",
    "Verif.Str.C65_trim_false"
   ],
   "note": "Texts with something else than space, any memory behind; texts of space only if a null unit follows. Refuted otherwise: the scan runs over the end (C65_trim_false)."
  },
  {
   "property": "C66",
   "status": "proved",
   "theorems": [
    "Verif.Str.C66_getcase"
   ],
   "note": "Exact."
  },
  {
   "property": "C67",
   "status": "proved",
   "theorems": [
    "Verif.Stream.C67_no_overflow"
   ],
   "note": "All byte sequences."
  },
  {
   "property": "C68",
   "status": "partial",
   "theorems": [
    "Verif.Expander.C68_attributes",
    "Verif.Expander.C68_attributes_false",
    "Verif.Expander.C68_sound",
    "Verif.Expander.C68_complete_partial",
    "Verif.Expander.C68_variant_false",
    "Verif.Expander.C68_two_paradigms_false",
    "Verif.Expander.C68_empty_paradigm_false"
   ],
   "note": "Soundness for every dictionary (if v and vr do not both exclude an entry: C68_attributes_false). Completeness for entries with r, without paradigms, or with restricted pairs in the last paradigm only; lost otherwise: C68_variant_false, C68_two_paradigms_false. Paradigms without remaining entries end the program: C68_empty_paradigm_false."
  },
  {
   "property": "C69",
   "status": "partial",
   "theorems": [
    "Verif.Compiler.C69_dictionary_partial",
    "Verif.Compiler.C69_refused_reason",
    "Verif.Compiler.C69_refused_empty",
    "Verif.Compiler.C69_refused_space_partial",
    "Verif.Compiler.C69_empty_paradigm_false",
    "Verif.Compiler.C69_after_expression_false",
    "Verif.Compiler.C69_spaces_false",
    "Verif.Compiler.C69_acx_false"
   ],
   "note": "Proved for files without equivalent characters in which a text that follows a regular expression or a paradigm with one does not begin inside it, and whose last paradigm is not empty; the negations are proved by witnesses. Weights are under C56."
  },
  {
   "property": "C70",
   "status": "partial",
   "theorems": [
    "Verif.Att.C70_file",
    "Verif.Att.C70_relates_partial",
    "Verif.Att.C70_split_partial",
    "Verif.Att.C70_start_false",
    "Verif.Att.C70_split_false",
    "Verif.Att.C70_weight_false"
   ],
   "note": "The exact relation is proved without splitting, for the initial states the code uses (C70_file) and, where they agree, the ones of the format (C70_relates_partial). C70_start_false: a file with one transducer always starts in state 0. C70_weight_false: of two lines that differ in weight only the first counts. C70_split_false: splitting, which is the default, can lose words. C70_split_partial: the sections relate nothing but what the file says."
  },
  {
   "property": "C71",
   "status": "proved",
   "theorems": [
    "Verif.Proc.C71_analysis",
    "Verif.Proc.C71_flushing",
    "Verif.Proc.C71_unique",
    "Verif.Proc.C71_end_false",
    "Verif.Proc.C71_tag_false",
    "Verif.Proc.C71_ignored_false",
    "Verif.Proc.C71_space_false",
    "Verif.Proc.C71_pair_false"
   ],
   "note": "From the bytes of the file to the units written. C71_analysis, C71_flushing and C71_unique hold for all dictionaries and texts that meet the conditions; the conditions are on the dictionary, the ICU tables and the text, not on the model. Each condition is needed: without a final newline text is lost (C71_end_false), an unknown tag ends the analysis (C71_tag_false), an ignored character at the end of the file gives U+FFFF (C71_ignored_false), spaces change (C71_space_false), half a surrogate pair is written (C71_pair_false)."
  },
  {
   "property": "C72",
   "status": "proved",
   "theorems": [
    "Verif.Gen.C72_generation",
    "Verif.Gen.C72_unique",
    "Verif.Gen.C72_escape_false",
    "Verif.Gen.C72_tags_false",
    "Verif.Gen.C72_lost_false",
    "Verif.Gen.C72_capitals_false"
   ],
   "note": "From the bytes of the file to the units written, in all seven modes. C72_unique: the forms are determined up to the order of equal weights. What users may expect and does not hold: escapes are doubled in units that are passed on (C72_escape_false), tags that come first or after an escaped backslash are not removed (C72_tags_false), units with the mark @ disappear in the mode for careful case (C72_lost_false), capitals are decided by the second letter alone (C72_capitals_false)."
  },
  {
   "property": "C73",
   "status": "proved",
   "theorems": [
    "Verif.Bil.C73_bilingual",
    "Verif.Bil.C73_source",
    "Verif.Bil.C73_marks_false",
    "Verif.Bil.C73_escape_false",
    "Verif.Bil.C73_lost_false",
    "Verif.Bil.C73_letters_false",
    "Verif.Bil.C73_any_false",
    "Verif.Bil.C73_chunks_false"
   ],
   "note": "From the bytes of the file to the units written, in all modes, with and without surface forms; units with the mark # are excluded. C73_source: the reading before the slash is the reading that was read, if it has no needless backslashes. What users may expect and does not hold: marks other than * are lost (C73_marks_false), an escaped # at the start of a reading becomes a mark (C73_escape_false), with surface forms units with one reading disappear (C73_lost_false), a word that begins with another word is translated as that word with the remaining letters (C73_letters_false), arcs for any character read tags (C73_any_false), chunks are lost (C73_chunks_false)."
  },
  {
   "property": "C74",
   "status": "proved",
   "theorems": [
    "Verif.Post.C74_postgeneration",
    "Verif.Post.C74_ends",
    "Verif.Post.C74_settles",
    "Verif.Post.C74_unchanged",
    "Verif.Post.C74_match",
    "Verif.Post.C74_escaped_space_false",
    "Verif.Post.C74_end_false",
    "Verif.Post.C74_unknown_tag_false",
    "Verif.Post.C74_empty_word_false",
    "Verif.Post.C74_skip_false",
    "Verif.Post.C74_again_false",
    "Verif.Post.C74_endless_false"
   ],
   "note": "From the bytes of the file to the text written. C74_ends: termination and the output, for dictionaries that make the text longer by less than the search goes on (C74_settles: in particular without empty arcs that write); without that condition the program may not end (C74_endless_false). C74_unchanged: texts without matches. What users may expect and does not hold: C74_escaped_space_false, C74_end_false, C74_unknown_tag_false, C74_empty_word_false, C74_skip_false, C74_again_false."
  },
  {
   "property": "C75",
   "status": "proved",
   "theorems": [
    "Verif.Trans.C75_biltrans",
    "Verif.Trans.C75_without_queue",
    "Verif.Trans.C75_full",
    "Verif.Trans.C75_with_queue",
    "Verif.Trans.C75_star",
    "Verif.Trans.C75_last_tag",
    "Verif.Trans.C75_cut_false",
    "Verif.Trans.C75_lost_false",
    "Verif.Trans.C75_empty_false",
    "Verif.Trans.C75_full_false",
    "Verif.Trans.C75_tiny_false",
    "Verif.Trans.C75_backslash_false",
    "Verif.Trans.C75_never_false"
   ],
   "note": "All four functions, for all units, with what the code does: the unit without its last character (C75_last_tag: so the last tag is never read), the rest after the longest part that any path reads. C75_never_false: three of the functions translate nothing if case is ignored. Other ways in which the first three sentences do not hold: C75_cut_false, C75_lost_false, C75_empty_false, C75_full_false, C75_tiny_false, C75_backslash_false."
  },
  {
   "property": "C76",
   "status": "proved",
   "theorems": [
    "Verif.Print.C76_minimized",
    "Verif.Print.C76_start_false",
    "Verif.Print.C76_epsilon_false",
    "Verif.Print.C76_leads_false",
    "Verif.Print.C76_print",
    "Verif.Print.C76_roundtrip",
    "Verif.Print.C76_no_finals"
   ],
   "note": "C76_print says which lines are written and what they mean by the rules of the AT&T format; C76_roundtrip adds lt-comp; C76_minimized says that minimised transducers start in 0 and that lt-print begins with a line of the initial state, which is needed for several transducers in one file. What does not hold: C76_start_false (another initial state), C76_leads_false (a first line of another state), C76_epsilon_false (the letter ε without the option for HFST)."
  },
  {
   "property": "C77",
   "status": "proved",
   "theorems": [
    "Verif.Load.C77_load",
    "Verif.Load.C77_unsupported",
    "Verif.Load.C77_loadGeneration",
    "Verif.Load.C77_start",
    "Verif.Load.C77_startGeneration",
    "Verif.Load.C77_analysis"
   ],
   "note": "C77_load and C77_loadGeneration: the runs; C77_unsupported: other names; C77_start and C77_startGeneration: what is refused, and that the loaded setting is regular in the sense of C71 and C72; C77_analysis: from the sections to the output of lt-proc -a. Nodes are numbers; the order of addresses, by which the maps of final nodes are sorted, is not used."
  },
  {
   "property": "C78",
   "status": "proved",
   "theorems": [
    "Verif.Chain.C78_analysis",
    "Verif.Chain.C78_tags",
    "Verif.Chain.C78_letters",
    "Verif.Chain.C78_empty"
   ],
   "note": "C78_analysis: the whole chain; C78_tags: the numbers of tags; C78_empty: a dictionary with an entry that reads nothing is refused by lt-comp; C78_letters: the letters stored in the file. The order of the analyses of a word is that of weights which the statement leaves open (C56 shows that weights of entries do not come through as written). That a text can be read in fewer than 65536 ways is a condition on the loaded graph."
  },
  {
   "property": "C79",
   "status": "proved",
   "theorems": [
    "Verif.Chain.Forms.C79_generation",
    "Verif.Chain.Forms.C79_back",
    "Verif.Chain.Forms.C79_roundtrip",
    "Verif.Chain.Forms.C79_mark_false"
   ],
   "note": "C79_generation: the whole chain; C79_back: pairs turned round; C79_roundtrip: both programs. C79_mark_false: an analysis that begins with * (or # = %) is not escaped by the analyser and taken for a mark by the generator, so that the word does not come back. The order of forms is left open as in C78."
  },
  {
   "property": "C80",
   "status": "proved",
   "theorems": [
    "Verif.Tools.C80_compiled",
    "Verif.Tools.C80_letters_false",
    "Verif.Tools.C80_invert",
    "Verif.Tools.C80_invert_twice",
    "Verif.Tools.C80_append",
    "Verif.Tools.C80_single_false"
   ],
   "note": "C80_invert, C80_invert_twice, C80_append: on the bytes of the files. C80_compiled: the files of lt-comp are of this kind. C80_letters_false: outside the quantifier, letters beyond the Basic Multilingual Plane are changed. Also outside: lt-append -s, for files with single symbols on their arcs, takes letters for codes of pairs and fails on every file whose letters have larger numbers (C80_single_false)."
  },
  {
   "property": "C81",
   "status": "proved",
   "theorems": [
    "Verif.Tools.C81_restrict"
   ],
   "note": "C81_restrict: on the bytes of the files, without -m (see C100)."
  },
  {
   "property": "C82",
   "status": "partial",
   "theorems": [
    "Verif.Unified.C82_unified_partial",
    "Verif.Unified.C82_direct",
    "Verif.Unified.C82_same_partial",
    "Verif.Unified.C82_left_false"
   ],
   "note": "Missing: attributes with several values (compiled through a paradigm of their own), and variants of the other side: lt-comp lr keeps an entry with vl, lt-restrict lr drops it unless its value is given with -l (C82_left_false). Sections that become empty stay in the file after lt-restrict, while lt-comp leaves them out; the theorems speak of pairs."
  },
  {
   "property": "C83",
   "status": "partial",
   "theorems": [
    "Verif.Trim.C83_after_false",
    "Verif.Trim.C83_join_false",
    "Verif.Trim.C83_trim_partial",
    "Verif.Trim.C83_plain",
    "Verif.Trim.C83_nothing_left"
   ],
   "note": "Missing: queues and groups (the theorem about Transducer::trim, C50, has the same restriction), and bilingual dictionaries where an entry goes on with letters after another: there the code keeps too much (C83_after_false). C83_plain: the claim for analyses without joins. C83_join_false: what comes before a join need only be the beginning of an entry."
  },
  {
   "property": "C84",
   "status": "partial",
   "theorems": [
    "Verif.Composed.C84_anywhere_false",
    "Verif.Composed.C84_compose_partial",
    "Verif.Composed.C84_nothing_left"
   ],
   "note": "Exact up to the pair of two empty strings, which may be lost. Missing: weights (sums differ in general, see C49), second files which are not closed with -a. With -a only an end of Y can be replaced, while the manual promises any part (C84_anywhere_false)."
  },
  {
   "property": "C85",
   "status": "partial",
   "theorems": [
    "Verif.Patterns.C85_mixed_false",
    "Verif.Patterns.C85_spurious_false",
    "Verif.Patterns.C85_banned_false",
    "Verif.Patterns.C85_build",
    "Verif.Patterns.C85_banned"
   ],
   "note": "Missing: lists that are not tidy, for which it is false: with a queue in the middle of a sequence (a label) beside a sequence without one, fitting words are lost (C85_mixed_false) or others are found (C85_spurious_false). With banned numbers it is true if patterns with different numbers are different (C85_banned), and false otherwise (C85_banned_false)."
  },
  {
   "property": "C86",
   "status": "partial",
   "theorems": [
    "Verif.Patterns.C86_no_label_false",
    "Verif.Patterns.C86_sequence",
    "Verif.Patterns.C86_user"
   ],
   "note": "Missing: sequences with a label that has no pattern: what came before it is forgotten (C86_no_label_false), and the matching of lists with labels outside of tidy ones (C85). The tags must not have the names ANY_CHAR and QUEUE of the marks."
  },
  {
   "property": "C87",
   "status": "proved",
   "theorems": [
    "Verif.Patterns.C87_roundtrip",
    "Verif.Patterns.C87_user"
   ],
   "note": "Within the range of the format. The patterns themselves are not written, and the name of the transducer is not compared when it is read."
  },
  {
   "property": "C88",
   "status": "proved",
   "theorems": [
    "Verif.Tmx.C88_longest",
    "Verif.Tmx.C88_references",
    "Verif.Tmx.C88_restored",
    "Verif.Tmx.C88_unknown",
    "Verif.Tmx.C88_split_false"
   ],
   "note": "It is false that references stand for whole numbers of the target (C88_split_false), and the theorem about numbers that the source lacks says nothing of those near the beginning; C88_restored covers them."
  },
  {
   "property": "C89",
   "status": "proved",
   "theorems": [
    "Verif.Tmx.C89_memory",
    "Verif.Tmx.C89_same_language"
   ],
   "note": "Reading the XML is left out: a unit is its variants, and a text is its characters with -2 for each mark. The attributes of the unit play no part in the code. Within the sizes of the file format."
  },
  {
   "property": "C90",
   "status": "proved",
   "theorems": [
    "Verif.Tmx.C90_unit",
    "Verif.Tmx.C90_same_numbers",
    "Verif.Tmx.C90_slots",
    "Verif.Tmx.C90_several",
    "Verif.Tmx.C90_literal_false",
    "Verif.Tmx.C90_mark_false"
   ],
   "note": "Missing: targets with closing parentheses of their own, for which it is false: a target with @(5) reads beyond the numbers (C90_literal_false), and (#) becomes a space (C90_mark_false). C90_slots covers other parentheses."
  },
  {
   "property": "C91",
   "status": "proved",
   "theorems": [
    "Verif.Paradigm.C91_unknownTag_false",
    "Verif.Paradigm.C91_unknownChoice_false",
    "Verif.Paradigm.C91_escapedStar_false",
    "Verif.Paradigm.C91_excluded_false",
    "Verif.Paradigm.C91_cycles_false",
    "Verif.Paradigm.C91_lists",
    "Verif.Paradigm.C91_matches"
   ],
   "note": "Missing: queues and groups in the analyses. False and refuted: an unknown tag in a pattern is left out of it (C91_unknownTag_false), so is a choice of unknown tags (C91_unknownChoice_false), an escaped star is a star (C91_escapedStar_false), -e does not disregard paths with the tag where the pattern names it (C91_excluded_false), with a cycle the list is incomplete (C91_cycles_false)."
  },
  {
   "property": "C92",
   "status": "partial",
   "theorems": [
    "Verif.TmProc.C92_text_partial",
    "Verif.TmProc.C92_every",
    "Verif.TmProc.C92_one",
    "Verif.TmProc.C92_end_false",
    "Verif.TmProc.C92_escape_false",
    "Verif.TmProc.C92_newline_false",
    "Verif.TmProc.C92_inside_false",
    "Verif.TmProc.C92_parts_false",
    "Verif.TmProc.C92_longer_false"
   ],
   "note": "Missing: memories in which a segment goes on after another one with a stop. The load of the file is in C93. False and refuted: a segment or the beginning of one at the end of the text is lost (C92_end_false), escaped characters in words lose their backslash (C92_escape_false), without -s nothing is replaced before a newline (C92_newline_false), a segment that begins inside the beginning of another one is not found (C92_inside_false), numbers are taken over into the next part (C92_parts_false), where a segment goes on after another one numbers are read again without their text, with undefined behaviour (C92_longer_false)."
  },
  {
   "property": "C93",
   "status": "partial",
   "theorems": [
    "Verif.TmProc.C93_text_partial",
    "Verif.TmProc.C93_refused",
    "Verif.TmProc.C93_spoilt_false"
   ],
   "note": "Missing: memories in which a source goes on after another one with a stop (C92_longer_false), sources with more than one target, blanks that the target has no mark for, texts that end in a source (C92_end_false). C93_refused settles when the file is accepted; that it always is is false: one unit whose source starts with a mark and a space makes all of the memory unusable (C93_spoilt_false)."
  },
  {
   "property": "C94",
   "status": "partial",
   "theorems": [
    "Verif.Trans.C94_lookup",
    "Verif.Trans.C94_exact",
    "Verif.Trans.C94_never_false",
    "Verif.Trans.C94_letters_false"
   ],
   "note": "C94_lookup: the exact results for every word of letters of the basic plane and tags. C94_exact: the claim for case-sensitive processors, words with known tags only and dictionaries that do not read U+0001. False otherwise: without case-sensitivity, which is the default, no word is ever found (C94_never_false, for all dictionaries and words): the truth value is passed as an alternative symbol, and the alternative 0 empties the set of states. Letters beyond the basic plane are not found, and arcs for U+0001 read every letter (C94_letters_false)."
  },
  {
   "property": "C95",
   "status": "partial",
   "theorems": [
    "Verif.Sao.C95_sao_partial",
    "Verif.Sao.C95_last_word_lost",
    "Verif.Sao.C95_last_unknown_endless",
    "Verif.Sao.C95_open_section_endless",
    "Verif.Sao.C95_written_twice_false",
    "Verif.Sao.C95_section_moved_false",
    "Verif.Sao.C95_space_lost_false"
   ],
   "note": "C95_sao_partial: the tokens and their output for every dictionary without compounds and every text that fits. Missing, because false: texts that do not end with a character outside words (a last known word is lost: C95_last_word_lost; a last unknown letter is written without end: C95_last_unknown_endless), sections that are not closed (C95_open_section_endless), beginnings of multiwords that are not known (C95_written_twice_false), sections within multiwords (C95_section_moved_false, C95_space_lost_false). Compounds are not in this mode. Which of several analyses is written is not specified: it is one of them."
  },
  {
   "property": "C96",
   "status": "partial",
   "theorems": [
    "Verif.Acx.C96_read",
    "Verif.Acx.C96_apply_partial",
    "Verif.Acx.C96_apply",
    "Verif.Acx.C96_twice_false"
   ],
   "note": "C96_read: which files are read, and what the table holds. C96_apply: the paths of the new file, for files of equivalents in which no character has two char elements with equivalents, and within the sizes of the format. C96_apply_partial: the same for all files, with only the first such element counting. Missing, because false: the equivalents of a second char element for a character are not put in (C96_twice_false)."
  },
  {
   "property": "C97",
   "status": "partial",
   "theorems": [
    "Verif.Split.C97_as_written",
    "Verif.Split.C97_parts_partial",
    "Verif.Split.C97_unchanged_partial",
    "Verif.Split.C97_weights_false",
    "Verif.Split.C97_no_limit",
    "Verif.Split.C97_limit",
    "Verif.Split.C97_limit_reached"
   ],
   "note": "C97_as_written: splitting is the same as writing the sections split, for all files and limits, also when compilation fails. C97_parts_partial, C97_unchanged_partial: which pairs each part relates, and that together they are the pairs of the section, for the files of C69 without section names that begin with +. C97_no_limit, C97_limit, C97_limit_reached: from which number of entries on lt-comp splits sections; otherwise it is the program of C69. Missing, because false: weights (C97_weights_false: entries that differ only in their weights survive if they get into different parts). What C69 leaves out is missing here as well."
  },
  {
   "property": "C98",
   "status": "partial",
   "theorems": [
    "Verif.Sep.C98_sections_partial",
    "Verif.Sep.C98_separable_partial",
    "Verif.Sep.C98_refused",
    "Verif.Sep.C98_adjacent_false",
    "Verif.Sep.C98_shared_false"
   ],
   "note": "C98_sections_partial: what each section relates, wildcards that follow each other without anything between them counting as one; C98_separable_partial: exactly what is written, if no entry has two equal wildcards after each other; C98_refused: refused exactly if some pair begins with a space or is empty on the side that is read, without further conditions. Missing, because false: equal wildcards after each other (C98_adjacent_false: <t/><t/> accepts one tag), and entries that go on with a boundary where another one ends (C98_shared_false: from the entries a, a<d/>b and c<d/>b the compiler makes one that accepts c with a boundary). Missing: paradigms, regular expressions, equivalent characters and weights."
  },
  {
   "property": "C99",
   "status": "proved",
   "theorems": [
    "Verif.Cli.C99_parse",
    "Verif.Cli.C99_order",
    "Verif.Cli.C99_help",
    "Verif.Cli.C99_version",
    "Verif.Cli.C99_unknown_letter",
    "Verif.Cli.C99_no_value",
    "Verif.Cli.C99_no_argument",
    "Verif.Cli.C99_unknown_long_false",
    "Verif.Cli.C99_tools",
    "Verif.Cli.C99_merge_false",
    "Verif.Cli.C99_merge"
   ],
   "note": "C99_parse: outcome of every command line made of options of the tool and files; C99_order: order and form do not matter; C99_help, C99_version, C99_unknown_letter, C99_no_value, C99_no_argument: when a tool ends early; C99_tools: the options of all tools meet the hypothesis; C99_merge: the files of lt-merge. The claim says nothing of two cases in which the program does not do what one expects: unknown and abbreviated long names, for which getopt_long reads beyond the options (C99_unknown_long_false); lt-merge with one file, which it does not open (C99_merge_false). getopt_long itself is modelled after glibc, not verified."
  },
  {
   "property": "C100",
   "status": "partial",
   "theorems": [
    "Verif.Minimised.C100_minimised_partial",
    "Verif.Minimised.C100_plain",
    "Verif.Minimised.C100_empty_false"
   ],
   "note": "C100_minimised_partial: on the bytes of the files; also when the program ends instead. C100_plain: when nothing is minimised. Missing, because false: sections that have lost all their paths (C100_empty_false: lt-restrict -m lr ends with an error if a section has entries from right to left only), sections whose only final state has a weight (C29_minimize_false). Missing: results that are too large for the format."
  },
  {
   "property": "C101",
   "status": "partial",
   "theorems": [
    "Verif.Shared.C101_shared_partial",
    "Verif.Shared.C101_one",
    "Verif.Shared.C101_in_turn",
    "Verif.Shared.C101_clash_false",
    "Verif.Shared.C101_twice_false"
   ],
   "note": "C101_shared_partial: all orders, if the alphabet has all pairs already. C101_one: one thread. C101_in_turn: one thread after the other. Missing, because false: new pairs (C101_clash_false: two threads get one code for two pairs; C101_twice_false: two threads add the same pair, and the next new pair gets a code that means it). Not modelled: symbols that composeLabel adds, and what C++ leaves undefined when two threads write to one std::map."
  },
  {
   "property": "C102",
   "status": "proved",
   "theorems": [
    "Verif.Modes.C102_task",
    "Verif.Modes.C102_kinds",
    "Verif.Modes.C102_line",
    "Verif.Modes.C102_version_help",
    "Verif.Modes.C102_manual_false",
    "Verif.Modes.C102_number",
    "Verif.Modes.C102_signed",
    "Verif.Modes.C102_no_number"
   ],
   "note": "C102_task, C102_kinds: for all sets of options; C102_line: for all command lines; C102_number, C102_no_number: which values are taken. Outside the statement: an option that the manual has makes the program read outside its table (C102_manual_false), and -N 3x is taken as -N 3 (C102_number)."
  },
  {
   "property": "C103",
   "status": "partial",
   "theorems": [
    "Verif.TmxCli.C103_start",
    "Verif.TmxCli.C103_options_false",
    "Verif.TmxCli.C103_one_language_false"
   ],
   "note": "C103_start: exactly when the program goes on, and with what. False and refuted: options can be used (C103_options_false, for all command lines: there may be only three arguments, and an option takes the place of the languages); one language in place of two is refused (C103_one_language_false). The setters that the options would call are empty."
  },
  {
   "property": "C104",
   "status": "partial",
   "theorems": [
    "Verif.CompCli.C104_runs",
    "Verif.CompCli.C104_settings",
    "Verif.CompCli.C104_refused",
    "Verif.CompCli.C104_variable_false",
    "Verif.CompCli.C104_acx_false",
    "Verif.CompCli.C104_limit",
    "Verif.CompCli.C104_size",
    "Verif.CompCli.C104_jobs_false"
   ],
   "note": "C104_runs: exactly when compilation begins; C104_settings: with what; C104_refused: how it ends otherwise; C104_limit, C104_size: the size of sections. False and refuted: a wrong value of LT_MAX_SECTION_ENTRIES gives a message (C104_variable_false: an exception that nothing catches); the file of equivalent characters is used (C104_acx_false: not for rl, u or the format of AT&T); LT_JOBS=0 or false does not ask for threads (C104_jobs_false)."
  },
  {
   "property": "C105",
   "status": "partial",
   "theorems": [
    "Verif.CharFiles.C105_analyser",
    "Verif.CharFiles.C105_null",
    "Verif.CharFiles.C105_read",
    "Verif.CharFiles.C105_read_upper",
    "Verif.CharFiles.C105_fold_false",
    "Verif.CharFiles.C105_taken",
    "Verif.CharFiles.C105_ignored",
    "Verif.CharFiles.C105_restored",
    "Verif.CharFiles.C105_no_default_false",
    "Verif.CharFiles.C105_outside_false",
    "Verif.CharFiles.C105_no_value_false",
    "Verif.CharFiles.C105_order_false"
   ],
   "note": "C105_taken: exactly which files are taken; C105_ignored, C105_restored: exactly which characters; C105_analyser, C105_null: what this means for the conditions of C71; C105_read: what a listed character is read as, if it is not upper case or -c is given; C105_read_upper: the same for an upper case letter on which tolower and u_tolower agree. False and refuted: -I together with -i (C105_no_default_false: the soft hyphen is ignored all the same); any character can be listed (C105_outside_false: none outside the basic plane); wrong files are refused (C105_no_value_false: a char without a value makes the null character ignored; C105_order_false: undefined behaviour); to list more characters never makes a word unknown (C105_fold_false: upper case letters outside ASCII are no longer read as lower case letters). A file that is not well-formed XML counts up to the error, without a message."
  }
 ]
}