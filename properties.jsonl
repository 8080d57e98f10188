{"id": "C01", "title": "Compressed integers round-trip in any stream context", "statement": "Every unsigned value below 2^30 written with multibyte_write and followed by arbitrary further bytes is returned unchanged by multibyte_read, which leaves the stream exactly at those further bytes.", "quantifier": "all 32-bit values below 2^30, all byte suffixes", "why_tests_cant": "Four length classes with 2^30 values times every possible following byte; tests only sample boundaries.", "anchors": ["lttoolbox/compression.cc: Compression::multibyte_write", "lttoolbox/compression.cc: Compression::multibyte_read"]}
{"id": "C02", "title": "Out-of-range integers are refused, never mis-encoded; encodings are 1 to 4 bytes and their length is fixed by the value range", "statement": "multibyte_write terminates with an error exactly for values of 2^30 or more and writes nothing usable; for every other value the number of bytes written is 1, 2, 3 or 4 according to the thresholds 2^6, 2^14, 2^22.", "quantifier": "all 32-bit values", "why_tests_cant": "The refusal boundary and the three length boundaries must hold for every value, not only those a test picks.", "anchors": ["lttoolbox/compression.cc: Compression::multibyte_write"]}
{"id": "C03", "title": "Streams of compressed integers are uniquely decodable", "statement": "Two different sequences of encodable values never produce the same bytes, and no encoding is a proper prefix of another encoding.", "quantifier": "all pairs of finite sequences of values below 2^30", "why_tests_cant": "Ranges over pairs of unbounded sequences.", "anchors": ["lttoolbox/compression.cc: Compression::multibyte_write"]}
{"id": "C04", "title": "Compressed strings round-trip for every UTF-16 string", "statement": "Any UTF-16 string of fewer than 2^30 code points, including unpaired surrogates and supplementary characters, written by string_write is returned unit for unit by string_read and the stream is left just after it.", "quantifier": "all finite sequences of 16-bit units, all byte suffixes", "why_tests_cant": "Surrogate pairing interacts with arbitrary neighbours; the input space is unbounded.", "anchors": ["lttoolbox/compression.cc: Compression::string_write", "lttoolbox/compression.cc: Compression::string_read", "lttoolbox/ustring.cc: ustring_to_vec32", "lttoolbox/ustring.h: operator+="]}
{"id": "C05", "title": "Weights: what the compressed weight format keeps", "statement": "For every pair of 32-bit mantissa and exponent words the weight encoding returns the same words; hence a finite weight is read back exactly when its binary significand fits in 30 bits, otherwise it is truncated toward zero with relative error below 2^-29; infinities are preserved. Claiming that every weight is preserved exactly would be false.", "quantifier": "all 32-bit word pairs and all byte suffixes; all finite binary significand/exponent values", "why_tests_cant": "2^64 word pairs; the loss only shows on significands longer than any test literal.", "anchors": ["lttoolbox/compression.cc: Compression::long_multibyte_write", "lttoolbox/compression.cc: Compression::long_multibyte_read"]}
{"id": "C06", "title": "Files with unknown features are refused, known ones are accepted", "statement": "The 8-byte feature word round-trips; a transducer or transducer-set stream whose header announces any feature bit the version does not know makes reading throw, and no data is returned; a stream cut inside the feature word throws.", "quantifier": "all 64-bit feature words and all continuations of the stream", "why_tests_cant": "2^64 feature words times every file tail.", "anchors": ["lttoolbox/compression.h: write_u64_be", "lttoolbox/compression.h: read_u64_be", "lttoolbox/transducer.cc: Transducer::read", "lttoolbox/file_utils.cc: readShared"]}
{"id": "C07", "title": "Serialised integers round-trip in any stream context", "statement": "serialise followed by deserialise returns the same value for every uint64, int64, uint32, int32 and char value (negative ones included), and consumes exactly the bytes written.", "quantifier": "all values of each integer type, all byte suffixes", "why_tests_cant": "2^64 values; sign extension and the size byte must agree for all.", "anchors": ["lttoolbox/serialiser.h: int_serialise, compressedSize", "lttoolbox/deserialiser.h: int_deserialise"]}
{"id": "C08", "title": "A truncated serialised value is always detected", "statement": "Deserialising any proper prefix of the bytes of a serialised integer, pair, list or map throws; it never returns a value.", "quantifier": "all values of the supported types and all truncation points", "why_tests_cant": "A crash can cut the file at any byte; every cut of every value must be rejected.", "anchors": ["lttoolbox/deserialiser.h: int_deserialise, Deserialiser<Container>::deserialise"]}
{"id": "C09", "title": "Serialised containers round-trip", "statement": "Pairs, vectors, and maps and multimaps with sorted keys of round-tripping element types come back identical, in any stream context, at any nesting depth.", "quantifier": "all finite containers, all nestings, all byte suffixes", "why_tests_cant": "Nesting and size are unbounded.", "anchors": ["lttoolbox/serialiser.h: Serialiser<Container>, Serialiser<std::pair>", "lttoolbox/deserialiser.h: Deserialiser<Container>, Deserialiser<std::pair>"]}
{"id": "C10", "title": "Serialised UTF-16 strings", "statement": "A string of UTF-16 units serialised and deserialised comes back identical. (Expected to be false of the code for units of 0x80 and above, because the unit reader returns a char; true for ASCII strings.)", "quantifier": "all finite sequences of 16-bit units", "why_tests_cant": "Existing tests use ASCII; the failing set is every other string.", "anchors": ["lttoolbox/deserialiser.h: Deserialiser<UChar>::deserialise", "lttoolbox/serialiser.h: Serialiser<UChar>::serialise"]}
{"id": "C11", "title": "Serialised alphabets", "statement": "An alphabet serialised and deserialised gives the same codes to the same symbols and pairs. (Expected to be false of the code: the pair table is rebuilt with the wrong bound.)", "quantifier": "all alphabets reachable by any history of inclusions", "why_tests_cant": "Depends on the relative number of tags and pairs, over unbounded histories.", "anchors": ["lttoolbox/alphabet.cc: Alphabet::serialise, Alphabet::deserialise"]}
{"id": "C12", "title": "Codes already handed out never change", "statement": "After any sequence of includeSymbol and pair-code requests, the code of every tag included before and of every pair coded before is the same as when it was first returned, and decode still returns that pair.", "quantifier": "all histories of alphabet operations", "why_tests_cant": "Stability is a statement about unbounded histories.", "anchors": ["lttoolbox/alphabet.cc: Alphabet::includeSymbol", "lttoolbox/alphabet.cc: Alphabet::operator()", "lttoolbox/alphabet.cc: Alphabet::decode"]}
{"id": "C13", "title": "Codes are unambiguous", "statement": "In every alphabet reachable by any history: distinct tags have distinct negative codes -1..-n, distinct pairs have distinct codes 0..m-1, decoding a pair's code returns that pair, the empty pair has code 0, and the text of a tag's code is that tag.", "quantifier": "all histories, all symbols and pairs", "why_tests_cant": "Injectivity over all reachable states.", "anchors": ["lttoolbox/alphabet.cc: Alphabet::operator()", "lttoolbox/alphabet.cc: Alphabet::decode", "lttoolbox/alphabet.cc: Alphabet::getSymbol", "lttoolbox/alphabet.cc: Alphabet::isTag"]}
{"id": "C14", "title": "Binary alphabets round-trip", "statement": "Writing an alphabet whose tags are all of the form <...> and reading it back, followed by arbitrary further bytes, yields an alphabet with the same tag codes and the same pair codes, positioned at those further bytes.", "quantifier": "all alphabets reachable by any history with bracketed tags and codes in range, all byte suffixes", "why_tests_cant": "Unbounded alphabets.", "anchors": ["lttoolbox/alphabet.cc: Alphabet::write", "lttoolbox/alphabet.cc: Alphabet::read"]}
{"id": "C15", "title": "Loopback symbols are exactly the identity pairs of one side", "statement": "createLoopbackSymbols returns codes which decode to x:x where x is, by name, a symbol that occurs on the requested side of some pair of the basis alphabet; every such symbol is covered (letters only on request); and no code previously in the alphabet changes.", "quantifier": "all pairs of reachable alphabets", "why_tests_cant": "Depends on two arbitrary alphabets whose numbering differs.", "anchors": ["lttoolbox/alphabet.cc: Alphabet::createLoopbackSymbols"]}
{"id": "C16", "title": "Symbol comparison across alphabets is comparison of names", "statement": "Without wildcards, sameSymbol on symbols of two alphabets is true exactly when they are the same letter or tags with the same text; with wildcards it is additionally true exactly for <ANY_CHAR> against a letter or <ANY_TAG> against a tag on either side.", "quantifier": "all pairs of alphabets and symbols", "why_tests_cant": "Numbering of tags is independent in the two alphabets.", "anchors": ["lttoolbox/alphabet.cc: Alphabet::sameSymbol"]}
{"id": "C17", "title": "Splitting text into symbols loses nothing", "statement": "Splitting any string with symbol_iter yields pieces that, with the dropped escape backslashes put back, concatenate to the string; and tokenising the escaped text of any sequence of letters and known tags gives back that sequence.", "quantifier": "all UTF-16 strings; all symbol sequences over an alphabet", "why_tests_cant": "Escapes, unclosed tags and surrogates can be combined arbitrarily.", "anchors": ["lttoolbox/symbol_iter.cc: symbol_iter::iterator::operator++", "lttoolbox/alphabet.cc: Alphabet::tokenize"]}
{"id": "C18", "title": "Transducer well-formedness is preserved by every building operation", "statement": "Starting from an empty transducer, after any sequence of building operations every transition target, every final state and the initial state exist and states are numbered 0..n-1; newly created states were not in use before.", "quantifier": "all histories of building operations", "why_tests_cant": "Unbounded histories; a dangling state would only crash much later.", "anchors": ["lttoolbox/transducer.cc: Transducer::newState", "lttoolbox/transducer.cc: Transducer::insertSingleTransduction", "lttoolbox/transducer.cc: Transducer::insertNewSingleTransduction", "lttoolbox/transducer.cc: Transducer::linkStates", "lttoolbox/transducer.cc: Transducer::insertTransducer", "lttoolbox/transducer.cc: Transducer::joinFinals"]}
{"id": "C19", "title": "A word list is stored exactly", "statement": "Inserting any list of symbol sequences one by one into an empty transducer with insertSingleTransduction and marking the ends final gives a transducer that accepts exactly those sequences.", "quantifier": "all finite lists of finite sequences of non-epsilon symbols", "why_tests_cant": "Prefix sharing can interact between any two entries.", "anchors": ["lttoolbox/transducer.cc: Transducer::insertSingleTransduction", "lttoolbox/transducer.cc: Transducer::setFinal"]}
{"id": "C20", "title": "Linking states is idempotent and checked", "statement": "linkStates adds exactly the requested arc unless an arc with the same symbol and target is already there, changes nothing else, is idempotent, and refuses (terminates) exactly when one of the states does not exist.", "quantifier": "all transducers, states, symbols and weights", "why_tests_cant": "All states of the structure.", "anchors": ["lttoolbox/transducer.cc: Transducer::linkStates"]}
{"id": "C21", "title": "Closure is reachability", "statement": "closure(state, tags) terminates and returns exactly the states reachable from the state by transitions labelled with those tags, cycles included.", "quantifier": "all transducers, states and tag sets", "why_tests_cant": "Epsilon cycles of any shape; termination on every graph.", "anchors": ["lttoolbox/transducer.cc: Transducer::closure"]}
{"id": "C22", "title": "Bulk closure is reachability over weightless epsilons", "statement": "closure_all terminates and gives for every state exactly the set of states reachable by zero-weight epsilon transitions.", "quantifier": "all well-formed transducers", "why_tests_cant": "The propagation order is data dependent; a fixpoint stopped too early is only wrong on some graphs.", "anchors": ["lttoolbox/transducer.cc: Transducer::closure_all"]}
{"id": "C23", "title": "Joining final states preserves the weighted language", "statement": "joinFinals leaves exactly one final state, accepts the same symbol sequences with the same weights as before, and terminates with an error exactly when there is no final state.", "quantifier": "all well-formed transducers", "why_tests_cant": "Language equality over all words.", "anchors": ["lttoolbox/transducer.cc: Transducer::joinFinals"]}
{"id": "C24", "title": "optional, oneOrMore and zeroOrMore are the regular operators", "statement": "After optional the accepted language is the old one plus the empty sequence; after oneOrMore it is the set of concatenations of one or more old words; after zeroOrMore the set of concatenations of zero or more.", "quantifier": "all well-formed transducers with at least one final state, all words", "why_tests_cant": "Language equality over infinitely many words; initial states with incoming arcs are the classic failure.", "anchors": ["lttoolbox/transducer.cc: Transducer::optional", "lttoolbox/transducer.cc: Transducer::oneOrMore", "lttoolbox/transducer.cc: Transducer::zeroOrMore"]}
{"id": "C25", "title": "Inserting a transducer concatenates", "statement": "insertTransducer(s, t) returns a state r such that what can be read from any old state to r is what can be read to s followed by a word of t, and what can be read between old states is unchanged. (The final weight of a single-final t is expected to be lost.)", "quantifier": "all well-formed pairs of transducers, all states", "why_tests_cant": "Renumbering correctness over all graphs.", "anchors": ["lttoolbox/transducer.cc: Transducer::insertTransducer"]}
{"id": "C26", "title": "Union", "statement": "After unionWith the accepted language is the union of the two languages. (Expected to be false when the receiving transducer has a cycle through its initial state.)", "quantifier": "all well-formed pairs of transducers, all words", "why_tests_cant": "The failing shape (return to the initial state) is produced by minimisation, not by hand-written tests.", "anchors": ["lttoolbox/transducer.cc: Transducer::unionWith"]}
{"id": "C27", "title": "Reversal", "statement": "reverse yields a transducer accepting exactly the reversed sequences, with the same weights. (Expected to lose the weight of a single final state.)", "quantifier": "all well-formed transducers, all words", "why_tests_cant": "Transitions are moved while iterating; order effects depend on state numbers.", "anchors": ["lttoolbox/transducer.cc: Transducer::reverse"]}
{"id": "C28", "title": "Determinisation preserves the language and terminates", "statement": "determinize terminates on every well-formed transducer, gives a transducer accepting the same weighted sequences (when final states are weightless), in which every state has at most one arc per symbol and weight and no weightless epsilon. (With weighted final states it is expected to lose or mix up final weights.)", "quantifier": "all well-formed transducers, all words", "why_tests_cant": "Subset construction over all graphs; the weight bug needs a coincidence of state numbers.", "anchors": ["lttoolbox/transducer.cc: Transducer::determinize"]}
{"id": "C29", "title": "Minimisation preserves the language", "statement": "minimize never changes the set of accepted weighted sequences, and leaves a transducer with no final states untouched. (A single weighted final state is expected to lose its weight.)", "quantifier": "all well-formed transducers, all words", "why_tests_cant": "Language equality over all words.", "anchors": ["lttoolbox/transducer.cc: Transducer::minimize"]}
{"id": "C30", "title": "Minimisation is minimal", "statement": "After minimize no deterministic automaton over the same symbols accepting the same sequences has fewer states.", "quantifier": "all well-formed transducers with weightless final states; all competing automata", "why_tests_cant": "Quantifies over every other automaton.", "anchors": ["lttoolbox/transducer.cc: Transducer::minimize"]}
{"id": "C31", "title": "Appending dot-star", "statement": "appendDotStar accepts exactly the words of the transducer followed by any sequence of the given symbols. (Expected to accept more when a final state has outgoing arcs.)", "quantifier": "all well-formed transducers and symbol sets, all words", "why_tests_cant": "Language equality.", "anchors": ["lttoolbox/transducer.cc: Transducer::appendDotStar"]}
{"id": "C32", "title": "Inversion swaps the two sides", "statement": "After invert the transducer relates y to x exactly when it related x to y before, with the same weight; inverting twice restores every transition.", "quantifier": "all transducers and alphabets", "why_tests_cant": "New pair codes are created during the traversal.", "anchors": ["lttoolbox/transducer.cc: Transducer::invert"]}
{"id": "C33", "title": "Restriction: deleting and epsilonising symbols", "statement": "deleteSymbols keeps exactly the accepted sequences that use none of the symbols; epsilonizeSymbols accepts exactly the old sequences with the symbols erased.", "quantifier": "all transducers, all symbol sets without epsilon, all words", "why_tests_cant": "Language equality.", "anchors": ["lttoolbox/transducer.cc: Transducer::deleteSymbols", "lttoolbox/transducer.cc: Transducer::epsilonizeSymbols"]}
{"id": "C34", "title": "Character equivalence expansion", "statement": "After applyACX a pair sequence is accepted exactly when it can be obtained from an accepted one by replacing some left-hand symbols by their declared equivalents, with the same weight.", "quantifier": "all transducers, alphabets and equivalence tables", "why_tests_cant": "Language equality over all tables.", "anchors": ["lttoolbox/transducer.cc: Transducer::applyACX"]}
{"id": "C35", "title": "Changing alphabets keeps the string relation", "statement": "updateAlphabet re-codes a transducer for another alphabet so that every path spells the same pairs of symbol names with the same weights as before, and codes already in the new alphabet stay valid.", "quantifier": "all transducers and pairs of alphabets", "why_tests_cant": "Two independent numberings.", "anchors": ["lttoolbox/transducer.cc: Transducer::updateAlphabet"]}
{"id": "C36", "title": "Compiled transducers round-trip through the binary format", "statement": "Writing a well-formed transducer and reading it back, followed by arbitrary bytes, yields the same initial state, final states and transitions, with weights exact whenever they are representable in the weight format.", "quantifier": "all well-formed transducers in range, all byte suffixes", "why_tests_cant": "State differences are stored modulo the size; all shapes must decode.", "anchors": ["lttoolbox/transducer.cc: Transducer::write", "lttoolbox/transducer.cc: Transducer::read"]}
{"id": "C37", "title": "Serialised transducers round-trip", "statement": "serialise followed by deserialise restores a transducer exactly, and every truncation is rejected.", "quantifier": "all transducers", "why_tests_cant": "Unbounded structures.", "anchors": ["lttoolbox/transducer.cc: Transducer::serialise", "lttoolbox/transducer.cc: Transducer::deserialise"]}
{"id": "C38", "title": "The run-time loader and the library loader agree", "statement": "Reading the same bytes with the run-time loader (TransExe) and with Transducer::read gives the same graph: same initial node, same final nodes and weights, same arcs with their pairs decoded through the alphabet.", "quantifier": "all byte streams accepted by the writer", "why_tests_cant": "Two independent implementations of the format.", "anchors": ["lttoolbox/trans_exe.cc: TransExe::read", "lttoolbox/transducer.cc: Transducer::read"]}
{"id": "C39", "title": "Running a transducer follows exactly its paths", "statement": "After init and any sequence of step calls, the alive states with their output sequences and weights are exactly those of the paths that read the given input symbols, followed by any number of epsilons; isFinal is true exactly when one of them ends in a final node.", "quantifier": "all run-time graphs without epsilon cycles, all input sequences", "why_tests_cant": "Unbounded inputs and graphs.", "anchors": ["lttoolbox/state.cc: State::init", "lttoolbox/state.cc: State::step", "lttoolbox/state.cc: State::apply", "lttoolbox/state.cc: State::epsilonClosure", "lttoolbox/state.cc: State::isFinal"]}
{"id": "C40", "title": "Case-insensitive stepping adds exactly the lower-cased alternatives", "statement": "step with an alternative symbol reaches exactly what stepping with either symbol reaches, and marks a path as altered exactly when an alternative symbol was used on it.", "quantifier": "all run-time graphs, all state sets, all symbols", "why_tests_cant": "All states and inputs.", "anchors": ["lttoolbox/state.cc: State::step", "lttoolbox/state.cc: State::apply", "lttoolbox/state.cc: State::apply_careful", "lttoolbox/state.cc: State::apply_into"]}
{"id": "C41", "title": "n-best selection", "statement": "The analyses returned are a prefix of the weight-sorted analyses, at most the requested number; nothing omitted has a smaller weight than something returned; no analysis is printed twice. The weight-class limit counts distinct weights. (The last clause is expected to be false.)", "quantifier": "all lists of analyses and limits", "why_tests_cant": "All permutations and ties.", "anchors": ["lttoolbox/state.cc: State::NFinals", "lttoolbox/state.cc: State::filterFinalsArray"]}
{"id": "C42", "title": "Compound pruning", "statement": "pruneCompounds keeps exactly the alive states whose last part carries the required symbol and which have the smallest number of compound elements within the limit; pruneStatesWithForbiddenSymbol keeps exactly those without the symbol; order is preserved.", "quantifier": "all state sets", "why_tests_cant": "All states.", "anchors": ["lttoolbox/state.cc: State::pruneCompounds", "lttoolbox/state.cc: State::pruneStatesWithForbiddenSymbol", "lttoolbox/state.cc: State::lastPartHasRequiredSymbol"]}
{"id": "C43", "title": "sorted_vector is a finite set", "statement": "After any sequence of inserts, range inserts and erases the container holds exactly the elements of the corresponding mathematical set, in strictly increasing order; insert reports whether the element was new, erase whether it was present; find, count and intersects answer set membership and disjointness.", "quantifier": "all histories, all element orders", "why_tests_cant": "Unbounded histories and the sorted/unsorted merge paths.", "anchors": ["lttoolbox/sorted_vector.hpp: sorted_vector"]}
{"id": "C44", "title": "Binary search finds exactly the present tags", "statement": "SortedVector::search terminates, returns a destination stored under the tag when the tag is present and NULL exactly when it is absent, for any table sorted by tag; it never reads outside the table.", "quantifier": "all sorted tables and tags", "why_tests_cant": "Off-by-one errors only show for particular sizes and positions.", "anchors": ["lttoolbox/sorted_vector.cc: SortedVector::search"]}
{"id": "C45", "title": "The circular input buffer behaves as a rewindable stream", "statement": "As long as the reader is rewound by fewer positions than the capacity, any sequence of add, next, peek, back and saved-position restores returns the same values as an unbounded list with a cursor. (Restoring a saved position equal to the capacity is expected to break this, as is copying the buffer.)", "quantifier": "all histories within the capacity, all capacities", "why_tests_cant": "Wrap-around only happens after thousands of symbols, at particular offsets.", "anchors": ["lttoolbox/buffer.h: Buffer"]}
{"id": "C46", "title": "Pattern matching state: least matching rule", "statement": "While no more than the capacity of states is alive, classifyFinals returns the smallest non-banned rule number among final states alive, and -1 exactly when there is none; step moves every alive state. (Beyond 1023 pending states the ring is expected to lose states.)", "quantifier": "all match automata, all inputs within capacity", "why_tests_cant": "Ring positions depend on the whole history.", "anchors": ["lttoolbox/match_state.cc: MatchState::step, MatchState::classifyFinals, MatchState::size"]}
{"id": "C47", "title": "Regular expressions compile to their language", "statement": "For every regular expression of the supported syntax (letters, escapes, groups, alternatives, postfix operators, character classes) the compiled transducer accepts exactly the strings the expression denotes, mapped to themselves; malformed expressions are refused. (Expected to be false for negated classes, which accept the empty string, and for trailing input after an unmatched parenthesis.)", "quantifier": "all regular expressions, all strings", "why_tests_cant": "Infinite grammar and language.", "anchors": ["lttoolbox/regexp_compiler.cc: RegexpCompiler::compile, S, RExpr, Term, Esp"]}
{"id": "C48", "title": "Sections compiled concurrently do not influence each other", "statement": "Minimising the sections of a dictionary in any interleaving of threads gives the same result as minimising them one after the other.", "quantifier": "all interleavings, all sets of sections", "why_tests_cant": "Tests observe a few schedules.", "anchors": ["lttoolbox/compiler.cc: Compiler::parse"]}
{"id": "C49", "title": "Composition", "statement": "A pair sequence is accepted by the composition exactly when the first transducer maps x to some y that the second maps to z, weights added, for transducers with disjoint wildcard symbols and tags known in the receiving alphabet. (Expected to be false when an output tag is unknown there.)", "quantifier": "all well-formed pairs of transducers, all words", "why_tests_cant": "Epsilon interleavings of two machines.", "anchors": ["lttoolbox/transducer.cc: Transducer::compose", "lttoolbox/transducer.h: Transducer::composeLabel"]}
{"id": "C50", "title": "Trimming only removes", "statement": "Every path of a trimmed transducer is a path of the original one with the same symbols and weights up to weights contributed by the trimmer's epsilons (a transducer with groups may lose the weight of its final state), and on transducers without joins, compounds and groups a path is kept exactly when its right-hand side is accepted by the trimmer.", "quantifier": "all well-formed pairs of transducers and alphabets", "why_tests_cant": "Product of two arbitrary graphs.", "anchors": ["lttoolbox/transducer.cc: Transducer::trim"]}
{"id": "C51", "title": "Splitting and joining strings", "statement": "split returns the non-empty maximal pieces free of the delimiter, in order; joining non-empty pieces free of a one-unit delimiter and splitting again returns the pieces; substitute leaves no unreplaced occurrence other than those created by the replacement itself.", "quantifier": "all strings and delimiters", "why_tests_cant": "Unbounded strings.", "anchors": ["lttoolbox/string_utils.cc: StringUtils::split", "lttoolbox/string_utils.cc: StringUtils::join", "lttoolbox/string_utils.cc: StringUtils::split_escaped", "lttoolbox/string_utils.cc: StringUtils::substitute"]}
{"id": "C52", "title": "Prefix and suffix tests", "statement": "startswith is true exactly when the string is the prefix followed by something; endswith exactly when it is something followed by the suffix.", "quantifier": "all pairs of strings", "why_tests_cant": "All lengths including suffixes longer than the string.", "anchors": ["lttoolbox/string_utils.cc: StringUtils::startswith", "lttoolbox/string_utils.cc: StringUtils::endswith"]}
{"id": "C53", "title": "Escaping output is reversible", "statement": "Text written by writeEscaped contains no unescaped reserved character and removing one level of escaping gives the text back; lt-merge's quoting is undone by its unmerge.", "quantifier": "all strings", "why_tests_cant": "Reserved characters in any combination.", "anchors": ["lttoolbox/fst_processor.cc: FSTProcessor::writeEscaped, quoteMerge, quoteUnmerge, appendEscaped"]}
{"id": "C54", "title": "The stream reader reports exactly what is in the stream", "statement": "For every well-formed stream of blanks and lexical units, the successive calls of StreamReader::next return those blanks and units in order with their readings, and then end of file.", "quantifier": "all well-formed streams", "why_tests_cant": "Unbounded streams with nested escapes and blocks.", "anchors": ["lttoolbox/stream_reader.cc: StreamReader::next", "lttoolbox/input_file.cc: InputFile::readBlank, readBlock, finishWBlank, get, unget"]}
{"id": "C55", "title": "UTF-8 input is decoded to its code points", "statement": "Reading a valid UTF-8 file code point by code point returns exactly the encoded code points and then end of file; a file cut inside a character throws.", "quantifier": "all code point sequences and all truncation points", "why_tests_cant": "All of Unicode and every cut.", "anchors": ["lttoolbox/input_file.cc: InputFile::internal_read, get"]}
{"id": "C56", "title": "Dictionary entries compile to exactly their pairs", "statement": "An entry with left symbols l and right symbols r adds to the section exactly one path spelling l on the left and r on the right, whatever their lengths, carrying the entry's weight once.", "quantifier": "all pairs of symbol sequences, all receiving transducers", "why_tests_cant": "Epsilon padding on either side at any length.", "anchors": ["lttoolbox/compiler.cc: Compiler::matchTransduction"]}
{"id": "C57", "title": "Expansion of paradigms is the cross product", "statement": "Expander's append yields exactly all concatenations of an element of the accumulated list with an element of the appended list, in order, for both sides.", "quantifier": "all pairs of lists", "why_tests_cant": "Unbounded lists.", "anchors": ["lttoolbox/expander.cc: Expander::append"]}
{"id": "C58", "title": "Integers in AT&T files", "statement": "fast_stoi returns the number denoted by any digit string that fits, and its result on other text is described.", "quantifier": "all digit strings", "why_tests_cant": "Unbounded strings.", "anchors": ["lttoolbox/att_compiler.cc: AttCompiler::fast_stoi"]}
{"id": "C59", "title": "Transducer sets round-trip", "statement": "writeTransducerSet followed by readTransducerSet restores letters, alphabet and every named transducer; unknown file features are refused.", "quantifier": "all transducer sets in range", "why_tests_cant": "Composition of all formats.", "anchors": ["lttoolbox/file_utils.cc: writeTransducerSet, readTransducerSet"]}
{"id": "C60", "title": "Pattern tag navigation", "statement": "PatternList::tagCount counts the tags of a dotted pattern and tagAt returns the i-th one, for all patterns not starting with a dot; indices out of range return the empty string.", "quantifier": "all patterns and indices", "why_tests_cant": "All strings.", "anchors": ["lttoolbox/pattern_list.cc: PatternList::tagCount, PatternList::tagAt"]}
{"id": "C61", "title": "Codes with a given left side", "statement": "symbolsWhereLeftIs returns exactly the codes of the pairs of the alphabet whose left side is the given symbol.", "quantifier": "all alphabets and symbols", "why_tests_cant": "All histories of an alphabet.", "anchors": ["lttoolbox/alphabet.cc: Alphabet::symbolsWhereLeftIs"]}
{"id": "C62", "title": "Unifying the final states of a loaded transducer", "statement": "After TransExe::unifyFinals there is a single final state with the default weight, and every string pair is related with the same total weights as before.", "quantifier": "all loaded transducers", "why_tests_cant": "All graphs, all paths.", "anchors": ["lttoolbox/trans_exe.cc: TransExe::unifyFinals"]}
{"id": "C63", "title": "Pooled sequences are never shared or used after release", "statement": "In any sequence of init, step, closure, prune, merge, assignment and destruction calls on State objects, no output sequence is shared between two alive states or between an alive state and a pool, none is used after release, and the contents are those of states that own their sequences.", "quantifier": "all sequences of calls on two objects", "why_tests_cant": "Aliasing shows only in particular histories and sanitiser runs cover finitely many.", "anchors": ["lttoolbox/state.cc: State::new_sequence, State::free_sequence, State::copy, State::destroy, State::merge"]}
{"id": "C64", "title": "Merging word-bound blanks", "statement": "merge_wblanks of two word-bound blanks is the word-bound blank whose content is both contents joined with '; '; an empty string is neutral and the operation is associative.", "quantifier": "all contents", "why_tests_cant": "Unbounded texts and any nesting of merges.", "anchors": ["lttoolbox/string_utils.cc: StringUtils::merge_wblanks"]}
{"id": "C65", "title": "Removing space at the ends of a text", "statement": "trim returns the text without the white space code points at its two ends, whatever white space and other code points (also outside the basic plane) it contains and whatever lies behind it in memory.", "quantifier": "all texts of Unicode scalar values and every notion of white space", "why_tests_cant": "Surrogate pairs and white space in every arrangement; reading behind the view is invisible to most tests.", "anchors": ["lttoolbox/string_utils.cc: StringUtils::trim"]}
{"id": "C66", "title": "The case pattern of a word", "statement": "getcase returns aa, Aa or AA according to the case of the first and the last code point of the word.", "quantifier": "all words of Unicode scalar values and every notion of upper case", "why_tests_cant": "All words, with surrogate pairs at both ends.", "anchors": ["lttoolbox/string_utils.cc: StringUtils::getcase"]}
{"id": "C67", "title": "The stream reader is safe on any input", "statement": "For every sequence of bytes, well-formed or not, every call of StreamReader::next ends, with values or an exception, and the push-back buffer of InputFile is never exceeded.", "quantifier": "all byte sequences and numbers of calls", "why_tests_cant": "All malformed inputs; an overflow of the three-place buffer would need a particular combination of peek and unget.", "anchors": ["lttoolbox/stream_reader.cc: StreamReader::next", "lttoolbox/input_file.cc: InputFile::unget, peek, get, readBlank, readBlock, finishWBlank"]}
{"id": "C68", "title": "lt-expand prints the meaning of the dictionary", "statement": "Every line printed by the expander is a pair of an entry of a section, in a direction that neither the entry nor the paradigms along it exclude, and every such pair is printed; entries are used in the directions that their attributes (r, alt, v, vl, vr, ignore) leave.", "quantifier": "all dictionaries and settings", "why_tests_cant": "Paradigms nest to any depth and combine every restriction; a test fixes one dictionary.", "anchors": ["lttoolbox/expander.cc: Expander::procEntry, Expander::procParDef, Expander::append"]}
{"id": "C69", "title": "A compiled section means what the dictionary says", "statement": "Compiling a dictionary succeeds exactly when no pair of a section is empty or begins with a space on the side that is read; each compiled section then relates exactly the pairs that its entries give through their texts, regular expressions and paradigms, as far as direction, alt, variants and ignore leave the entries; sections that give nothing are left out.", "quantifier": "all dictionaries, all settings", "why_tests_cant": "Paradigms nest to any depth and share prefixes and suffixes in the automaton; a test fixes one dictionary.", "anchors": ["lttoolbox/compiler.cc: Compiler::parse, procEntry, insertEntryTokens, matchTransduction, procParDef, valid"]}
{"id": "C70", "title": "A compiled AT&T file relates what its lines say", "statement": "Compiling a well-formed AT&T file without splitting succeeds, and the compiled transducer relates two texts with a weight exactly if one of the transducers in the file does, following its lines from the source of its first line to a state with a final line: empty symbols, spaces, tabs, tags and texts of several letters stand for what the format says, right-to-left compilation swaps the columns, transducers separated by lines of dashes are united although their states have the same numbers, and no state or line is lost. With splitting, the two sections together relate nothing else.", "quantifier": "all files, all settings of direction and symbols, all weights", "why_tests_cant": "tests compile a few small files; interactions of renumbering, common suffixes of transitions, texts of several letters and the union with an empty symbol depend on the whole file", "anchors": ["lttoolbox/att_compiler.cc:55-142", "lttoolbox/att_compiler.cc:191-536"]}
{"id": "C71", "title": "An analyser divides any text into tokens by longest match and loses nothing", "statement": "Let a dictionary be a finite run-time graph without cycles of empty arcs, whose entries are not empty and contain no spaces other than U+0020 and not at the start, with compounds and restored characters off. For every text in the stream format (characters, escaped characters, superblanks, word-bound blanks, ignored characters anywhere before these) that ends with something that no entry contains and in which no candidate for a word exceeds the buffer, lt-proc writes exactly the tokens of the longest-match division: at each place the longest known word (of a section that needs a boundary only if no letter follows) with each of its distinct analyses once, with its least weight, best first, in the case of the text; otherwise the longest sequence of letters, as the word it is in lower case or as an unknown word; otherwise the character itself, escaped, or the blank itself. Blanks inside a word follow it. The division is unique and covers the text. With null flushing, each text between NULs is analysed as if it were alone and followed by a NUL.", "quantifier": "for all dictionaries, option settings, tables of letters, and texts of any length that meet the stated conditions, and any number of texts between NULs, with fewer than 65536 paths for any text and no limit below that on the numbers of analyses and weight classes (the default)", "why_tests_cant": "Tests run a few dozen words through small dictionaries; look-ahead, rewinding in a circular buffer and queues of blanks interact without bound.", "anchors": ["lttoolbox/fst_processor.cc:179-242", "lttoolbox/fst_processor.cc:465-612", "lttoolbox/fst_processor.cc:718-753", "lttoolbox/fst_processor.cc:795-1076", "lttoolbox/fst_processor.cc:2467-2485"]}
{"id": "C72", "title": "A generator writes exactly the forms that the dictionary has for each unit", "statement": "Let a dictionary be a finite run-time graph without cycles of empty arcs. For every stream of lexical units, blanks, word-bound blanks and NULs, in every generation mode, lt-proc -g and its variants write, unit by unit, the blank and word-bound blank as they are and then, for the first reading: the forms of all paths that read its symbols (a capital letter as itself or in lower case; in the mode for careful case in lower case only where there is no arc for the capital) and end in a final node, each text once, with its least weight, the best first, separated by slashes, in the case of the unit if some letter was read in lower case; or, if there is no such path or the unit has a mark `*`, `%` or `@`, the text that the mode prescribes. NULs and the last blank are kept, and nothing else is written.", "quantifier": "for all dictionaries, alphabets, tables of letters, modes and streams of any length in which no tag comes first in a reading or follows an escaped backslash, with fewer than 65536 paths for any text and no limit below that on the numbers of analyses and weight classes (the default)", "why_tests_cant": "Tests compare a few units per mode; the set of paths for a unit, their order and the treatment of marks, cases, tags and blanks depend on dictionary and stream without bound.", "anchors": ["lttoolbox/fst_processor.cc:1263-1390", "lttoolbox/fst_processor.cc:513-530", "lttoolbox/fst_processor.cc:2368-2380", "lttoolbox/fst_processor.cc:656-665", "lttoolbox/state.cc:265-285", "lttoolbox/state.cc:510-578"]}
{"id": "C73", "title": "The bilingual mode writes exactly the translations of the longest part of each unit that has some", "statement": "Let a bilingual dictionary be a finite run-time graph without cycles of empty arcs. For every stream of lexical units, blanks, word-bound blanks and NULs, in every mode, with or without surface forms, lt-proc -b writes, unit by unit, the blank and word-bound blank as they are and then the reading that is to be translated, a slash and: the translations of the longest part at its start that has some (in two modes, and for readings without tags, only of the whole reading), that is, the outputs of all paths that read it (each letter as itself or in lower case; any symbol also by arcs for any symbol, which pass it on), each text once, with its least weight, the best first, in the case of the reading, each followed by the rest of the reading; or a mark and the reading if there is none; or, for units with the mark `*`, their text. Tags that the dictionary does not know are kept. NULs and the last blank are kept, and nothing else is written.", "quantifier": "for all dictionaries, alphabets, tables of letters, modes and streams of any length in which the readings to be translated have not the mark `#` and do not contain the tag `<ANY_CHAR>`, with fewer than 65536 paths for any text and no limit below that on the numbers of analyses and weight classes (the default)", "why_tests_cant": "Tests compare a few units; the set of paths, the longest part, the rest that is added and the alphabet that grows while reading depend on dictionary and stream without bound.", "anchors": ["lttoolbox/fst_processor.cc:1725-1862", "lttoolbox/fst_processor.cc:1707-1723", "lttoolbox/fst_processor.cc:626-632", "lttoolbox/state.cc:186-237", "lttoolbox/state.cc:388-400", "lttoolbox/state.cc:510-555"]}
{"id": "C74", "title": "Postgeneration and transliteration rewrite each text from left to right by the longest entries, across words, and keep all blanks", "statement": "Let a dictionary be a finite run-time graph without cycles of empty arcs. For every file of words, blanks, superblanks, word-bound blanks and NULs, what lt-proc -p (or -t, or intergeneration) writes, if it comes to an end, is the file with its words rewritten from left to right: at each position the longest part of the text that an entry reads, also across blanks, each letter as itself or as a lower-case letter, is replaced by what an entry of least weight writes, in the case of what was read; words that an entry joins share their blanks and word-bound blanks; every blank is written, in order, except single spaces for which no space is left. It comes to an end if each replacement makes the text longer by less than the search goes on. A text of which no entry reads a part is not changed.", "quantifier": "for all dictionaries in which fewer than 65536 paths read a text, where letters read in lower case count twice, and whose entries write letters of the basic plane and tags of the alphabet; all tables of letters, and all files that end with a blank or a word-bound blank and do not contain escaped spaces", "why_tests_cant": "Tests compare a few contractions; how far the text ahead is read, which words are joined and where the search goes on depend on dictionary and text without bound, and whether the program ends cannot be tested at all.", "anchors": ["lttoolbox/fst_processor.cc:1393-1596", "lttoolbox/fst_processor.cc:323-420", "lttoolbox/state.cc:402-438", "lttoolbox/string_utils.cc", "lttoolbox/alphabet.cc"]}
{"id": "C75", "title": "The functions that translate one lexical unit return the translations of the longest part with the rest, or the unit with a mark", "statement": "Let a dictionary be a finite run-time graph without cycles of empty arcs. Each of the four functions looks at a lexical unit, with or without delimiters, without its last character (so that the last tag is not read as one). biltrans returns what the entries of least weight write for the longest part at the start of it that they read, in the case of the unit, the best first, each with the symbols after the longest part that any path reads as rest; if no part has a translation, the whole unit with the mark @. biltransWithoutQueue returns translations only if there is no rest; biltransfull only if the unit is short, else an empty unit; biltransWithQueue only if what is looked at has a tag or an entry reads all of it, together with the length of the rest. If case is ignored, all but biltransWithQueue mark every unit with @. Units with the mark * are returned as they are, and the mark = is kept.", "quantifier": "for all dictionaries in which fewer than 65536 paths read a unit and whose entries write letters of the basic plane and tags of the alphabet; all tables of letters, and all units of letters of the basic plane and tags, shorter than 2^31", "why_tests_cant": "Tests of these functions need programs that call them, of which the project has none; which part is translated and what is left depend on dictionary and unit without bound.", "anchors": ["lttoolbox/fst_processor.cc:1598-1723", "lttoolbox/fst_processor.cc:1864-1995", "lttoolbox/fst_processor.cc:2453-2485", "lttoolbox/state.cc", "lttoolbox/symbol_iter.cc"]}
{"id": "C76", "title": "What lt-print writes is read back by lt-comp as the same relations", "statement": "Let a file hold transducers whose initial state is 0 and whose labels can be written. Then lt-print writes for each of them the lines of its arcs and final states, with -- between them, and lt-comp, with the same option for HFST, makes of this text one transducer that relates two texts if and only if one of those printed relates them; with the direction from right to left, the texts change places. The weights are the same if no two arcs with the same symbols join the same states. Minimised transducers, as lt-comp writes them, meet the conditions on the initial state. The initial state itself is not written, and a transducer without final states ends the program.", "quantifier": "for all alphabets and all nonempty lists of transducers with fewer than 2^31 states in all; all ways of writing weights that are read back as the same weights; without splitting of sections", "why_tests_cant": "Each transducer and alphabet gives another text, and whether every label and weight survives the two programs concerns all of them; tests compare a few outputs with files.", "anchors": ["lttoolbox/transducer.cc:728-777", "lttoolbox/transducer.cc:281-301", "lttoolbox/lt_print.cc:55-65", "lttoolbox/att_compiler.cc"]}
{"id": "C77", "title": "lt-proc loads the sections that lt-comp wrote and starts with them", "statement": "Let lt-comp write a file with some sections. Then lt-proc loads it: for each kind of sections (standard, inconditional, postblank, preblank), the runs of the loaded graph that end in final nodes of this kind are the runs of the sections whose names end in that way, with the same symbols and weights; what can be read at all is what some section can read; no final node has two weights. With a section of another name, the analyser stops before it reads any text. A file with an entry that is empty or starts with a space is refused. With any other file, the text is analysed by the loaded sections, in a setting that meets the conditions under which the analyser (C71) and the generator (C72) were proved right.", "quantifier": "for all alphabets, all sets of sections in the range of the format whose labels are in the alphabet, all options and texts; for the start: sections without cycles that read nothing", "why_tests_cant": "Which nodes of which section are reached after joining is a matter of all sections together; tests load a few dictionaries, mostly with one section.", "anchors": ["lttoolbox/fst_processor.cc:420-463", "lttoolbox/fst_processor.cc:626-665", "lttoolbox/fst_processor.cc:2138-2159", "lttoolbox/lt_proc.cc:177-232", "lttoolbox/file_utils.cc:134-145"]}
{"id": "C78", "title": "From the dictionary to the analysed text: lt-comp and lt-proc -a together do what the dictionary says", "statement": "Let lt-comp compile a dictionary with tags, paradigms, sections and an alphabet element, and let lt-proc -a read a text in the stream format with the file that lt-comp wrote. Then the text is divided into tokens by longest match in the entries of the dictionary: a word is a text that an entry of some section reads (letters in upper case may be read as letters in lower case), followed by something that is no letter unless the section is inconditional, postblank or preblank; where no word begins, the longest sequence of letters is an unknown word. For each word the analyses that are listed are exactly those that the dictionary has for it, each once. What an entry reads and writes is given by its texts, the entries of its paradigms and the strings of its regular expressions, with regard to direction restrictions and variants; nothing refers to transducers, files or states.", "quantifier": "for all dictionaries in which no text follows a regular expression in such a way that they get mixed up, whose entries do not start with spaces; all settings, alphabets, options without compounds, and all texts that fit into the buffer", "why_tests_cant": "Each step of the way was tested for a few dictionaries; that the steps fit together for every dictionary and every text cannot be tested.", "anchors": ["lttoolbox/compiler.cc:44-173", "lttoolbox/compiler.cc:1011-1015", "lttoolbox/lt_comp.cc:135-174", "lttoolbox/lt_proc.cc:177-232", "lttoolbox/fst_processor.cc:1066-1108"]}
{"id": "C79", "title": "From the dictionary to the generated text, and there and back", "statement": "Let lt-comp compile a dictionary in the direction for generation, and let lt-proc -g read a stream with the file that it wrote. Then for each unit whose first reading has no mark, or the mark =, the output lists exactly the forms that the dictionary has for it, each once, where letters in upper case may be read as letters in lower case and the case is restored as C72 says; a unit without forms, or with another mark, is written as the mode prescribes; units with tags that the dictionary does not have have no forms; blanks, word-bound blanks and NULs are kept. If no entry is restricted to one direction, the same dictionary compiled in the two directions goes there and back: whatever the analyser lists for a word of a text, read as it is written there, the generator gives for the text of that analysis a list of forms that has the word among them.", "quantifier": "for all dictionaries as in C78, settings, options and modes but the one for careful case; all streams whose units do not begin with a tag and have no escaped backslash before the first tag; for the way back, all analyses that do not start with one of * # = %", "why_tests_cant": "That generation undoes analysis is tested on samples of words; a dictionary is a set of pairs that need not be finite, and two compiler runs, two files, two loaders and two processors have to agree on every one of them.", "anchors": ["lttoolbox/compiler.cc:44-173", "lttoolbox/lt_comp.cc:135-174", "lttoolbox/fst_processor.cc:626-665", "lttoolbox/fst_processor.cc:1262-1402", "lttoolbox/lt_proc.cc:177-195"]}
{"id": "C80", "title": "Inverting and appending compiled dictionaries", "statement": "lt-invert reads a compiled dictionary and writes one with the same letters, tags and sections, in which each section has exactly the paths of the old one with the two sides of each arc exchanged and the same weights; inverting twice gives a file that says what the first one said. lt-append writes a file with the letters of both dictionaries, the tags and pairs of the first under their old numbers, and the sections of both; of two sections with the same name that of the second file is taken, or that of the first with -k; each section has exactly the paths that it had in its own file, though the two files number tags and pairs differently.", "quantifier": "for all compiled dictionaries with letters in the Basic Multilingual Plane, as lt-comp writes them, whose sizes do not exceed the format; all section names, cyclic sections, weights", "why_tests_cant": "The numbers of tags and pairs depend on the whole history of both files; a wrong renumbering shows only for certain pairs of files, and sections have infinitely many paths.", "anchors": ["lttoolbox/lt_invert.cc:35-45", "lttoolbox/lt_append.cc:42-66", "lttoolbox/transducer.cc:1258-1327", "lttoolbox/file_utils.cc:69-160"]}
{"id": "C81", "title": "Restricting a unified dictionary", "statement": "lt-restrict reads a compiled dictionary and writes one with the same letters, tags and sections. A path of a section stays exactly if no arc of it pairs a dropped control mark with itself, and on the paths that stay the chosen marks are replaced by the empty symbol; weights and all other symbols are kept, and for rl the two sides are exchanged. Chosen are the mark of the direction and the marks of the values given with -v, -a, -l and -r; dropped are all other marks for directions, alternatives, left and right variants, and those for variants if any value is given with -v; without -v marks for variants are erased.", "quantifier": "for all compiled dictionaries as in C80, both directions, all lists of values", "why_tests_cant": "Which entries survive depends on all marks along a path together, with paths shared between entries after minimisation; tests restrict a few entries in a few ways.", "anchors": ["lttoolbox/lt_restrict.cc:23-119", "lttoolbox/transducer.cc:1313-1360", "lttoolbox/alphabet.cc:74-110"]}
{"id": "C82", "title": "Unified compilation and restriction", "statement": "lt-comp u compiles a dictionary with all its entries, and lt-restrict with a direction and values for variants makes of it a compiled dictionary that has, in each section, exactly the pairs of sequences which the dictionary has with that direction and those variants. These are the pairs which lt-comp gives when it is called with the direction and the variants directly.", "quantifier": "for all regular dictionaries whose tags do not look like control marks and whose attributes have at most one value, both directions, all variants; variants of the side that the direction does not look at must be among the values given to lt-restrict", "why_tests_cant": "The marks of entries pass through minimisation, the joining of paradigms and the file before they are looked at; tests compare a few dictionaries.", "anchors": ["lttoolbox/compiler.cc:44-107", "lttoolbox/compiler.cc:697-787", "lttoolbox/lt_comp.cc:125-165", "lttoolbox/lt_restrict.cc:23-119"]}
{"id": "C83", "title": "lt-trim keeps what the bilingual dictionary has", "statement": "lt-trim makes of a compiled analyser and a compiled bilingual dictionary a compiled analyser with the same letters and the same alphabet which has, in each section, exactly those pairs whose analysis begins with something that the bilingual dictionary translates and has only tags after it. With -s a section is compared with the section of the same name only, otherwise with the sections not named by -s. If nothing is left it ends with an error.", "quantifier": "for all compiled dictionaries of any number of sections and of any size, without joins (+), queues (#), groups and compounds, and all lists of names for -s; entries of the bilingual dictionary that begin like others have only tags after that", "why_tests_cant": "The result depends on the union and minimisation of sections, on loops added for all tags of the analyser, on the rearranged copy and on a product of two transducers with different alphabets; tests compare a few entries.", "anchors": ["lttoolbox/lt_trim.cc:23-100", "lttoolbox/transducer.cc:874-1039", "lttoolbox/transducer.cc:330-420", "lttoolbox/alphabet.cc:342-390"]}
{"id": "C84", "title": "lt-compose makes the composition of two compiled dictionaries", "statement": "lt-compose makes of two compiled dictionaries a compiled dictionary with the letters and the tags of the first. Each of its sections relates X to Z exactly if the section of that name in the first file relates X to some Y which some section of the second file relates to Z; with -i the first file is read from right to left. With -a the second file may also read only a part of Y and the rest stays, or nothing of Y is changed. If nothing is left it ends with an error and writes nothing.", "quantifier": "for all compiled dictionaries of any number of sections and of any size without weights at their final states, where the first file knows the tags that the second writes; for -a, second files that are not closed under putting something before all entries", "why_tests_cant": "The sections of the second file are united and minimised first, the pairs that the composition needs are added to an alphabet which the next sections share, and the two files number their symbols differently; tests compare a few entries with a few symbols.", "anchors": ["lttoolbox/lt_compose.cc:27-98", "lttoolbox/transducer.cc:1109-1350", "lttoolbox/transducer.cc:330-420", "lttoolbox/lt-compose.1:13-36"]}
{"id": "C85", "title": "The automaton of a list of patterns finds the least number of a pattern that fits", "statement": "buildTransducer and newMatchExe succeed on every list of tidy patterns; after any steps within its capacity the automaton gives the least number of the patterns that stand for a string with one symbol of each step, and -1 if there is none. A mark for any characters or any tags stands for one or more of them, a mark that is repeated counts once, and a queue may be missing or begins with _, a space or #.", "quantifier": "for all lists of patterns with any symbols, sorted by number, in which no pattern has at a place where another has a queue what comes after that queue, for all sequences of steps of any number of symbols each", "why_tests_cant": "All patterns share one tree with loops and with arcs that go around the queue, and the first pattern that ends at a state gives it its number; tests tag a few words with a few patterns.", "anchors": ["lttoolbox/pattern_list.cc:298-358", "lttoolbox/pattern_list.cc:417-421", "lttoolbox/match_exe.cc:37-71", "lttoolbox/match_state.cc:124-147"]}
{"id": "C86", "title": "A list of patterns stores what its user puts in", "statement": "Lists made with insert and with sequences of lemmas and tags, in any order of the numbers: no call fails, the alphabet has all tags, and the automaton gives the least number among the items that fit: the characters of the lemma, with * for any characters, then the tags, with * for any tags, with + between the items of a sequence, and perhaps a queue at the end. A sequence with labels stores one pattern for every choice of the patterns with those numbers, and leaves the others as they are.", "quantifier": "for all sequences of such calls, for all lemmas, for all tags without dots and without the names of the three marks, for all numbers below 2^31-1; for labels, those which have a pattern", "why_tests_cant": "The vectors of a sequence are multiplied by those of each label while the alphabet grows; tests use a few tagger definitions.", "anchors": ["lttoolbox/pattern_list.cc:43-231", "lttoolbox/pattern_list.h:33-66"]}
{"id": "C87", "title": "A list of patterns survives its file", "statement": "write succeeds on a list of patterns whose tags, states and numbers are within the format, and read gives, whatever follows in the file and whatever list it is read into, the same alphabet, transducer and numbers of the final states, so that the same automaton is made of it, and the input stands right after it. The lists that a user makes are such lists.", "quantifier": "for all lists in the range of the format; for all lists made with insert and sequences with fewer than 2^28 tags, 2^30 states and tags of fewer than 2^30 units and numbers from 0 to 2^30-1", "why_tests_cant": "Alphabet, transducer and numbers follow each other without separators, and the transducer is written with the size of the alphabet as its base; tests write and read a few files.", "anchors": ["lttoolbox/pattern_list.cc:360-399"]}
{"id": "C88", "title": "lt-tmxcomp generalises the numbers of a unit without losing any", "statement": "numberLength finds the longest number at a place (digits, with points and commas between them). If every number of the target is a number of the source, align gives the source with <n> for each number and the target with @(k) for each number, where k counts the first equal number of the source. In any case either the unit stays as it is, or the source has <n> for each number and putting the number that it names for each reference gives the target back. A number that the source lacks leaves the unit as it is if it does not stand nearer to the beginning than it is long.", "quantifier": "for all texts, for any set of digits, for sources with fewer than 10^8 numbers", "why_tests_cant": "The loop works with positions, lengths and skips, and one of its bounds is wrong; tests compile no translation memories with several numbers.", "anchors": ["lttoolbox/tmx_compiler.cc:467-543", "lttoolbox/tmx_compiler.cc:545-582", "lttoolbox/tmx_compiler.cc:584-599"]}
{"id": "C89", "title": "The file of lt-tmxcomp holds the units of the translation memory and nothing else", "statement": "lt-tmxcomp succeeds, and the file has no letters and one section without a name; its pairs are just the units of the memory: for each unit the variants of a language joined, without space at the ends, with the numbers treated as in C88, with a space in the source and (#) in the target for the marks between parts, if both sides then have at least five symbols. With the same language for both sides nothing is stored.", "quantifier": "for all lists of units with any variants and languages, with texts of characters and marks, for all sets of digits and spaces, within the sizes of the file format", "why_tests_cant": "The units share one tree which is minimised and written; tests compile no translation memories.", "anchors": ["lttoolbox/tmx_compiler.cc:28-72", "lttoolbox/tmx_compiler.cc:175-370", "lttoolbox/tmx_compiler.cc:415-465", "lttoolbox/lt_tmxcomp.cc:105-122"]}
{"id": "C90", "title": "What lt-tmxproc writes for a unit that it finds is the target with the numbers of the input", "statement": "filterFinalsTM replaces each reference of a stored target by the number of the input with that place, each mark of a blank by the inside of the next blank of the input (a space if there is none), and leaves everything else, escaped. So for a unit whose target has no closing parenthesis the result is the target with the number of the input at the same place instead of each number that became a reference; with the numbers of the unit itself it is the target. Several targets are written one after the other.", "quantifier": "for all texts, for all units with fewer than 10^8 numbers in the source, for any set of digits with those of ASCII, for all numbers and blanks of the input", "why_tests_cant": "The text is cut at parentheses and searched backwards for references; tests compile no translation memories.", "anchors": ["lttoolbox/state.cc:679-784", "lttoolbox/tmx_compiler.cc:467-543"]}
{"id": "C91", "title": "lt-paradigm lists the forms of a dictionary whose analyses match a pattern", "statement": "For each pattern of its input lt-paradigm writes lines analysis:form. Each of them is an entry of the dictionary whose analysis is what the pattern stands for (letters, tags, `*` for any letters of the alphabet, `<*>` and `<*-a>` for any tags but those, `<*|a|b>` for any of these, `<|a|b>` for one of these); where an analysis has joins, what is after the last join is that, and the rest begins so. If the dictionary has no cycles, all such entries are there. With -s they are sorted and each is there once. Between the lists are the same line ends or zeros as between the patterns; sections that an earlier pattern changed and an alphabet that grew make no difference to later patterns.", "quantifier": "for all compiled dictionaries without queues and groups in the analyses and without wildcards, on either side, for all sequences of well-formed patterns, for any excluded tags", "why_tests_cant": "Patterns, dictionaries and the order of patterns vary without bound; the tests run a few patterns on a few words.", "anchors": ["lttoolbox/lt_paradigm.cc:28-216", "lttoolbox/transducer.cc:1000-1180"]}
{"id": "C92", "title": "lt-tmxproc replaces the segments of a text by their targets and copies the rest", "statement": "For a text in parts with NULs between them, lt-tmxproc writes one part after the other, each with a NUL. In a part, the longest piece with which a segment of the memory begins is taken; if it is a segment and a stop follows (punctuation, with -s also space), the text of its targets is written in brackets, with the numbers and blanks of the text in their places; if it is none, it is copied up to the end of the word. A space or punctuation mark with which no segment begins is copied, blanks with their text. Upper-case letters also match lower-case letters of the memory.", "quantifier": "for all memories in which no segment is empty, begins with a space or goes on after another segment with a stop, for all texts of well-formed tokens of any length, for all tables of ICU", "why_tests_cant": "Texts, memories and the parts into which a stream is divided vary without bound, and what is put back into the buffer and what the queues of blanks and numbers hold depends on all that was read; no test of the project runs lt-tmxproc.", "anchors": ["lttoolbox/fst_processor.cc:244-321", "lttoolbox/fst_processor.cc:567-612", "lttoolbox/fst_processor.cc:1093-1260", "lttoolbox/lt_tmxproc.cc:22-57"]}
{"id": "C93", "title": "A translation memory compiled by lt-tmxcomp and applied by lt-tmxproc gives the targets of its units", "statement": "If lt-tmxcomp compiles a translation memory and lt-tmxproc applies the file to a text, then each piece of the text that is the source of a unit and stands before a stop is replaced by the target of that unit, in brackets, with the numbers of the text for its references and the blanks of the text for its marks. All else is copied. No other piece is replaced, and no target is that of another unit. lt-tmxproc accepts the file.", "quantifier": "for all translation memories and texts, for all tables of ICU", "why_tests_cant": "Whether units interfere in the minimised transducer, whether the tag for numbers has the same code in both programs and whether the file is accepted depends on all units together; no test of the project runs the two programs one after the other.", "anchors": ["lttoolbox/tmx_compiler.cc:33-436", "lttoolbox/lt_tmxcomp.cc:105-122", "lttoolbox/fst_processor.cc:626-654", "lttoolbox/fst_processor.cc:1093-1260", "lttoolbox/lt_tmxproc.cc:22-57"]}
{"id": "C94", "title": "lookup gives exactly the analyses of a word", "statement": "FSTProcessor::lookup, with which programs that use the library look up one word, returns the outputs of exactly the entries of the dictionary whose input is the word, each text once, those with the least weight first. It returns false if and only if there is none.", "quantifier": "for all loaded dictionaries and all words of letters and tags", "why_tests_cant": "Dictionaries and words are unbounded; no test of the project calls the function.", "anchors": ["lttoolbox/fst_processor.cc:2487-2505", "lttoolbox/symbol_iter.cc:1-57", "lttoolbox/state.cc:239-263", "lttoolbox/state.cc:381-386"]}
{"id": "C95", "title": "the SAO mode annotates each word once", "statement": "lt-proc -s divides a text for the SAO annotation system into tokens by longest match. For a known word it writes its first analysis with tags written as &n; and the case of the word, it puts unknown words between <d> and </d>, and it writes everything else, with the CDATA sections, as it was. It ends on every input.", "quantifier": "for all dictionaries, all texts with escaped characters and CDATA sections", "why_tests_cant": "Texts and dictionaries are unbounded; no test of the project runs this mode, and that it ends on all inputs is beyond tests.", "anchors": ["lttoolbox/fst_processor.cc:2160-2212", "lttoolbox/fst_processor.cc:2214-2225", "lttoolbox/fst_processor.cc:2227-2367", "lttoolbox/state.cc:627-677"]}
{"id": "C96", "title": "lt-apply-acx adds the declared spellings and nothing else", "statement": "lt-apply-acx refuses a file of equivalent characters unless every element declares one character. Otherwise it turns a compiled dictionary into a compiled dictionary with the same letters, tags, sections and weights that has every old path, every path that differs from an old one by declared equivalents in place of letters of the left side, and no other.", "quantifier": "for all compiled dictionaries and all files of equivalent characters", "why_tests_cant": "There are exponentially many combinations of replaced letters, over unboundedly many dictionaries; tests compare a few files.", "anchors": ["lttoolbox/acx.cc:24-61", "lttoolbox/lt_apply_acx.cc:26-51", "lttoolbox/xml_walk_util.cc:4-90", "lttoolbox/transducer.cc:1352-1371"]}
{"id": "C97", "title": "splitting large sections changes nothing that is analysed", "statement": "With a limit on the number of entries (option -j or the variable LT_MAX_SECTION_ENTRIES) lt-comp puts the entries of a section, in order, into sections of limited size with names that begin with +. The parts are of the same kind as the section, no part gets mixed up with another section, and together they relate the same pairs with the same weights as the section does without a limit.", "quantifier": "for all dictionaries and all limits", "why_tests_cant": "The default limit is fifty thousand entries, so tests hardly ever split a section; limits and dictionaries are unbounded.", "anchors": ["lttoolbox/compiler.cc:969-983", "lttoolbox/compiler.cc:44-107", "lttoolbox/lt_comp.cc:85-96"]}
{"id": "C98", "title": "a separable dictionary compiles to what its entries stand for", "statement": "In a dictionary of type separable, <t/> and <w/> stand for one or more tags or characters. lt-comp makes of each section a transducer that relates exactly what the entries of the section stand for, with and without a word boundary after it, and refuses only dictionaries with an entry that begins with a space or reads nothing.", "quantifier": "for all dictionaries whose entries are texts, and all numbers of repetitions of the wildcards", "why_tests_cant": "Wildcards stand for unboundedly many symbols, entries share states, and the boundary is added to a transducer that has been minimised.", "anchors": ["lttoolbox/compiler.cc:201-305", "lttoolbox/compiler.cc:919-992", "lttoolbox/compiler.cc:90-106"]}
{"id": "C99", "title": "command lines mean the same however they are written", "statement": "The tools that use the class CLI run with the options, values and files that stand on the command line, whatever their order and form: letters together or apart, values attached or separate, long names, files between options, and files after two hyphens. Too few or too many files, unknown letters, missing values and -h lead to the usage message, and -v to the version where it is an option.", "quantifier": "for all sets of options that can be told apart, so for those of all tools, and all command lines", "why_tests_cant": "There are unboundedly many command lines and ways to write the same one; tests use a few.", "anchors": ["lttoolbox/cli.cc:123-181", "lttoolbox/cli.h:25-75", "lttoolbox/lt_comp.cc:36-54", "lttoolbox/lt_merge.cc:26-40"]}
{"id": "C100", "title": "lt-restrict -m keeps what can be seen", "statement": "lt-restrict with the option -m, or with the variable LT_RELEASE, writes a dictionary with the same sections as without it, and in each section the same pairs of symbols with the same weights: minimising only removes states and pairs of nothing.", "quantifier": "for all compiled dictionaries, all choices of direction and variants, and all orders of weights", "why_tests_cant": "Minimising merges states in ways that depend on the whole transducer; tests compare a few outputs.", "anchors": ["lttoolbox/lt_restrict.cc:97-112", "lttoolbox/transducer.cc:396-404"]}
{"id": "C101", "title": "Threads of lt-compose share the alphabet", "statement": "With the variable LT_JOBS lt-compose works on all sections at the same time, and each section gets codes that mean its own pairs of symbols, whatever the order in which the threads run.", "quantifier": "for all alphabets, all numbers of threads, all lists of pairs that they ask for, and all orders of their statements", "why_tests_cant": "The order of threads is chosen by the system; a test sees one of very many orders, and the wrong ones are rare.", "anchors": ["lttoolbox/lt_compose.cc:50-87", "lttoolbox/alphabet.cc:85-97", "lttoolbox/transducer.cc:1375-1480"]}
{"id": "C102", "title": "What lt-proc does for its options", "statement": "The options of lt-proc for analysis, transfer and generation, decomposition, postgeneration, transliteration and SAO exclude each other: two of different kinds give the usage message, and one decides what is done, whatever the order of the options. -b, -o and -O go together, and with -g they transfer without tags that are left over. The options for the kind of generation count for generation and transfer only; of several the strongest counts, in the order -d, -l, -m, -n, -C, and without another option they mean generation. Each other setting depends on its own option; of several numbers for -N, -L or -M the last counts, and lt-proc ends with an error if it is not positive.", "quantifier": "for all command lines of options and files, and all sets of options", "why_tests_cant": "There are 2^21 sets of options without values, and any number of values and orders; tests use a few of them.", "anchors": ["lttoolbox/lt_proc.cc:30-176", "lttoolbox/lt_proc.cc:184-235", "lttoolbox/lt-proc.1"]}
{"id": "C103", "title": "Command lines of lt-tmxcomp", "statement": "lt-tmxcomp accepts the command lines that its usage message shows: two languages with a hyphen between them, a file to read and one to write, with the options -o and -m where they are wanted; it refuses all others.", "quantifier": "for all lists of arguments", "why_tests_cant": "Arguments are any texts in any number and order, and getopt changes their order; tests use one form.", "anchors": ["lttoolbox/lt_tmxcomp.cc:25-103"]}
{"id": "C104", "title": "Command lines of lt-comp", "statement": "lt-comp compiles exactly if the direction is lr, rl or u, the dictionary can be opened, and no variant is given for the left side with lr or for the right side with rl; otherwise it ends with a message and nothing is written. Each option sets what the manual says, of several values the first; the file of equivalent characters is used if it is given. LT_JOBS asks for threads if it is true, and LT_MAX_SECTION_ENTRIES sets the size of sections; a wrong value gives a message.", "quantifier": "for all command lines of options and files, all values of the two environment variables and all kinds of files", "why_tests_cant": "Options come in any number, order and spelling, and environment variables have any value; tests use a few command lines and no variables.", "anchors": ["lttoolbox/lt_comp.cc:35-170", "lttoolbox/lt-comp.1"]}
{"id": "C105", "title": "The characters that lt-proc ignores and restores", "statement": "With -i lt-proc ignores exactly the characters that the files list, and the soft hyphen unless -I or -r is given; with -r a character can be restored to exactly those that the files list for it. Any character can be listed, several files add up, and a file that is not as it should be is refused.", "quantifier": "for all lists of files with any sequences of elements, all combinations of the three options, and all characters", "why_tests_cant": "Files have any number of elements in any order, and options are combined; the project has no tests with such files.", "anchors": ["lttoolbox/fst_processor.cc:46-49", "lttoolbox/fst_processor.cc:67-176", "lttoolbox/fst_processor.cc:197-200", "lttoolbox/lt_proc.cc:133-151"]}
