# Formal model of lttoolbox: design

Subject: `/repo` (apertium/lttoolbox, C++), read as text only, never built or run.
Model and proofs: Lean 4.33.0, `/verif/lean`, modules under `Verif/`.

## Layout

One directory per area of the code, each with

* `Model.lean`  the C++ functions, one Lean definition per function, each citing file and lines;
* `Spec.lean`   the small independent vocabulary in which the properties are stated (only when core notions do not suffice);
* `Lemmas.lean` (or several) auxiliary lemmas;
* `Props.lean`  the property theorems, each with a nearby `example` showing that a concrete non-trivial case meets the hypotheses.

Theorems named `..._partial` prove part of the property; the comment above says what is missing.
Theorems named `..._false` refute a property of the code as it stands with a concrete witness.

## Conventions of the model

* Bytes are `UInt8`, `unsigned int` is `UInt32`; C casts are the truncating conversions.
* Error branches are distinct results: `exit` (process terminated), `exception` (C++ throw), `ub`
  (undefined behaviour: out-of-bounds access, over-wide shift, uninitialised read). A theorem that says a
  function "returns" a value says that none of these happened.
* `std::map`/`std::set` are key-sorted lists; `std::multimap` is a key-sorted list in which a new entry goes
  after all entries with an equal key (the C++11 guarantee).
* State numbers are `Nat` (C++ `int`; a transducer with 2^31 states is outside the model); symbols are `Int`.
* Weights: the transducer algorithms only compare weights with zero and with each other and copy them, except
  where the text says otherwise; they are an abstract type with a distinguished zero. The algorithms treat a
  transition label as the pair (symbol, weight) and a weighted final state as if followed by an
  epsilon transition with that weight; so the *fine language* of a transducer is its set of words over visible
  labels (every label except epsilon with weight zero), a non-zero final weight being a last label. The plain
  language (forget weights, erase epsilons) is a function of the fine one.
* Loops whose termination is not structural take fuel; a theorem shows that the fuel given by the wrapper
  is enough, so the result is the one of the unbounded loop.
* Memory management, I/O errors of the operating system, locale, ICU case tables and libxml2 are not modelled;
  where a case mapping is needed it is a parameter.

## Trusted base

* Lean's kernel; the axioms `propext`, `Classical.choice`, `Quot.sound` (see the axiom table produced by
  `#print axioms`; no other axiom is used; no `sorry`, `native_decide` or `bv_decide`).
* The reading of the C++ text recorded in the citation above each definition; the model is not extracted
  mechanically.
* The C++ standard's behaviour of the containers used and of unsigned arithmetic; `int` is 32 bits, `char` is signed.

## Plan per property

* **C01 Compressed integers round-trip in any stream context.** Compression/Model: multibyteWrite/Read over byte lists. Case analysis on the four classes, bit arithmetic by `omega`/`bv` free reasoning on Nat.
* **C02 Out-of-range integers are refused, never mis-encoded; encodings are 1 to 4 bytes and their length is fixed by the value range.** Same model; `none` = exit. Iff statement plus exact length table.
* **C03 Streams of compressed integers are uniquely decodable.** Corollary of C01 by induction over the sequences.
* **C04 Compressed strings round-trip for every UTF-16 string.** UTF-16 decode (U16_NEXT) and append (operator+=) modelled; induction over code points.
* **C05 Weights: what the compressed weight format keeps.** Mantissa/exponent words: bit-level round trip for all 2^64. Finite doubles as (significand, exponent) integers; truncation modelled on integers. Real `frexp/ldexp` are trusted to be the mathematical functions.
* **C06 Files with unknown features are refused, known ones are accepted.** read_u64_be/write_u64_be on byte lists; header checks as decision logic over whole input.
* **C07 Serialised integers round-trip in any stream context.** int_serialise/int_deserialise over Nat < 2^64 with casts; induction on the number of bytes.
* **C08 A truncated serialised value is always detected.** Compositional `Codec` structure: law that strict prefixes of an encoding give `exception`.
* **C09 Serialised containers round-trip.** Instances of the codec law for pairs, vectors, maps, multimaps.
* **C10 Serialised UTF-16 strings.** Refutation by witness + partial for units < 0x80.
* **C11 Serialised alphabets.** Refutation by witness + partial for alphabets where the number of pairs equals the number of tags or tables agree.
* **C12 Codes already handed out never change.** Alphabet state machine; invariant and monotonicity by induction over histories.
* **C13 Codes are unambiguous.** Invariant: maps and vectors are mutually inverse.
* **C14 Binary alphabets round-trip.** Codec composition; uses C01, C04.
* **C15 Loopback symbols are exactly the identity pairs of one side.** Model of the loop; set equality of decoded codes.
* **C16 Symbol comparison across alphabets is comparison of names.** Decision logic over `getSymbol` names.
* **C17 Splitting text into symbols loses nothing.** symbol_iter as list function; reconstruction lemma; tokenise of escaped text.
* **C18 Transducer well-formedness is preserved by every building operation.** `WF` invariant preserved by each operation, and history theorem.
* **C19 A word list is stored exactly.** Invariant relating the trie to the set of inserted words; determinism of the trie is part of the invariant.
* **C20 Linking states is idempotent and checked.** Edge characterisation.
* **C21 Closure is reachability.** Worklist loop with fuel = number of states + 1; result iff `ReflTransGen`.
* **C22 Bulk closure is reachability over weightless epsilons.** Fixpoint loop of closure_all; monotone, bounded.
* **C23 Joining final states preserves the weighted language.** Edge characterisation and path surgery.
* **C24 optional, oneOrMore and zeroOrMore are the regular operators.** As C23; specification with `List.flatten` of words (Kleene star).
* **C25 Inserting a transducer concatenates.** Path surgery with renumbering.
* **C26 Union.** Refutation by witness (a* with b) + partial when no arc enters the initial state.
* **C27 Reversal.** Paths reversed; refutation for weighted single final.
* **C28 Determinisation preserves the language and terminates.** Subset construction; worklist fuel 2^n; invariants of the loop; refutation with weighted finals.
* **C29 Minimisation preserves the language.** Composition of C27 and C28.
* **C30 Minimisation is minimal.** Brzozowski argument: determinising an accessible co-deterministic automaton gives the minimal one; lower bound by distinct residuals.
* **C31 Appending dot-star.** Path surgery; refutation for finals with outgoing arcs; partial otherwise.
* **C32 Inversion swaps the two sides.** Label rewriting lemma; alphabet threads through the fold.
* **C33 Restriction: deleting and epsilonising symbols.** Edge characterisation; language filtered / erased.
* **C34 Character equivalence expansion.** Edge characterisation.
* **C35 Changing alphabets keeps the string relation.** Label rewriting lemma with names.
* **C36 Compiled transducers round-trip through the binary format.** Codec composition over the C01/C05 encodings; state differences modulo size.
* **C37 Serialised transducers round-trip.** Codec laws of C07-C09.
* **C38 The run-time loader and the library loader agree.** Both readers modelled on the same byte stream; equality of resulting graphs.
* **C39 Running a transducer follows exactly its paths.** State as list of (node, output, dirty); epsilon closure with a termination measure on epsilon-acyclic graphs; equality with path enumeration.
* **C40 Case-insensitive stepping adds exactly the lower-cased alternatives.** Multiset equality of step(input,alt) with the two single-symbol steps.
* **C41 n-best selection.** Sorting by weight and truncation; refutation for weight classes.
* **C42 Compound pruning.** List filter characterisations.
* **C43 sorted_vector is a finite set.** Model of the vector operations; refinement to membership plus strict order.
* **C44 Binary search finds exactly the present tags.** Binary search loop with explicit index bounds (out of range = ub).
* **C45 The circular input buffer behaves as a rewindable stream.** Circular buffer refines list with cursor; refutations for wrap position and copy.
* **C46 Pattern matching state: least matching rule.** Ring refined to list; classifyFinals characterised; refutation beyond capacity.
* **C47 Regular expressions compile to their language.** Recursive-descent parser modelled as is, over the transducer operations of C18-C25; language of generated transducer = denotation of the AST whose printing is the input.
* **C48 Sections compiled concurrently do not influence each other.** Threads as interleavings of steps on disjoint components; commutation.
* **C49 Composition.** Product construction; soundness first, completeness for the no-flag case.
* **C50 Trimming only removes.** Product construction; soundness first.
* **C51 Splitting and joining strings.** List functions.
* **C52 Prefix and suffix tests.** List functions; iff with append.
* **C53 Escaping output is reversible.** List functions.
* **C54 The stream reader reports exactly what is in the stream.** State-machine parser over code points; print/parse round trip.
* **C55 UTF-8 input is decoded to its code points.** UTF-8 decoding over bytes with exceptions; encode/decode round trip.
* **C56 Dictionary entries compile to exactly their pairs.** matchTransduction loop over the C19 operations.
* **C57 Expansion of paradigms is the cross product.** List function, exact equality with the double comprehension.
* **C58 Integers in AT&T files.** Digit fold.
* **C59 Transducer sets round-trip.** Codec composition.
* **C60 Pattern tag navigation.** List functions.
* **C61 Codes with a given left side.** Fold over the map of pairs; membership.
* **C62 Unifying the final states of a loaded transducer.** Paths of the node graph before and after.
* **C63 Pooled sequences are never shared or used after release.** Memory as cells with addresses; two objects; every sequence of calls refines the list model.
* **C64 Merging word-bound blanks.** Lists of 16-bit units; substr with its exception.
* **C65 Removing space at the ends of a text.** The macros of unicode/utf16.h unit by unit on the view and the memory behind it; texts as UTF-16 of scalar values.
* **C66 The case pattern of a word.** As C65, with the case predicate as a parameter.
* **C67 The stream reader is safe on any input.** The loops of the reader with a number of turns bounded by the bytes left; running out of turns and exceeding the buffer are undefined outcomes, which are shown unreachable.
* **C68 lt-expand prints the meaning of the dictionary.** Entries as lists of pairs and names; meaning of a dictionary as an inductive relation in Dict/Spec; induction over the file.
* **C69 A compiled section means what the dictionary says.** Dictionary after the XML reader as a list of nodes; meaning of entries as an inductive relation; invariant relating the transducers under construction to it; minimisation by C29.
* **C70 A compiled AT&T file relates what its lines say.** The file as lines of columns of UTF-16 units; the meaning of a file is a relation given by its lines only (Att/Spec). Invariant of the graph under construction (Att/Build, Att/Lines), extraction by induction over the states visited (Att/Extract), paths of the graph against paths of the lines (Att/Paths, Att/Whole).
* **C71 An analyser divides any text into tokens by longest match and loses nothing.** Model readAnalysis, the loop of analysis, the printing functions and the null-flush wrapper over the models of Buffer, InputFile and State. Specify tokens over a list of pieces, with words given by paths in the graph. Prove by induction over pieces that the loop, from any reachable buffer state, writes the next token and stands at the start of the rest; then induct over tokens and over NUL-separated texts.
* **C72 A generator writes exactly the forms that the dictionary has for each unit.** Model generation with removeTags and writeEscapedWithTags over the models of StreamReader and State. Specify forms by an inductive relation of paths that read symbols with alternatives. Prove that the set of states after any symbols lists exactly these paths, once each; then pick the forms; then use the theorem about the stream reader (C54) for the loop.
* **C73 The bilingual mode writes exactly the translations of the longest part of each unit that has some.** Model bilingual over the models of StreamReader and State, with the alphabet that the reader extends. Reuse the relation of paths that read symbols with alternatives (C72). Prove that the loop over the symbols finds the longest part; that the second attempt with lower-case letters finds nothing that the first does not; that the position in the text at which the rest begins is the one after the symbols read; then the loop over the units by induction with the theorem about one call of the reader.
* **C74 Postgeneration and transliteration rewrite each text from left to right by the longest entries, across words, and keep all blanks.** Model transliteration with its queues, the reading of words and blanks, and the set of states. State the rewriting as a relation over words with their blanks, without queues. Invariant of the loop: the words in the queue with those not yet read are the rest of the text, the position in the queue is an offset in it, the states are those reached by the symbols read, the blanks in the queue are as many as the spaces and the difference that is carried along. Partial correctness by induction on the turns; termination by the length of the text behind the position.
* **C75 The functions that translate one lexical unit return the translations of the longest part with the rest, or the unit with a mark.** Model the four functions with the indices they use and the pieces that symbol_iter gives. State the answer by the runs of the graph: the longest part of the unit, without its last character, that a path to a final state reads, and the longest part that any path reads. The sets of states are the paths reached by the symbols, as in C72.
* **C76 What lt-print writes is read back by lt-comp as the same relations.** Model show, escapeSymbol and the loop of lt-print. Show that the text is that of a list of rows in the sense of C70, find the relation that these rows mean, and use C70 for what lt-comp makes of them.
* **C77 lt-proc loads the sections that lt-comp wrote and starts with them.** Model load, calcInitial, classifyFinals, initAnalysis, initGeneration and valid. Place the nodes of the sections one after the other; show that paths from the root are an empty arc and a path of one section; use C59 for the file and C39 for the check.
* **C78 From the dictionary to the analysed text: lt-comp and lt-proc -a together do what the dictionary says.** Join C69 (the compiled sections relate what the dictionary gives), C59 and C77 (file and loading) and C71 (the analyser). New: compiled sections have no cycles that read nothing, because outside of regular expressions paths are bounded and labels of regular expressions read what they write; all states are useful, so what can be read is the beginning of an entry; the tags of the dictionary have the numbers −1, −2, ...; among the weights of an analysis there is a least one because there are finitely many readings.
* **C79 From the dictionary to the generated text, and there and back.** Join C69, C59, C77 and C72 as C78 does. A walk of C72 that reads nothing but symbols or their lower-case letters is a path whose inputs are those symbols; symbols of the stream are numbers of tags of the dictionary, or read by no entry. For the way back: without restrictions entries are visible in both directions, so the pairs are turned round; the text of an analysis is the text of a reading whose symbols are the output of the entry.
* **C80 Inverting and appending compiled dictionaries.** A file says a path of names if reading it gives a section with arcs whose codes stand for those names. Join the round trip of files (C59) with inversion (C32) and renumbering (C35), after strengthening both so that they say where new tags and pairs come from: that bounds the sizes of the alphabets and keeps the arcs in range for the next section.
* **C81 Restricting a unified dictionary.** Join the round trip of files (C59) with deletion and erasure of arcs (C33) and inversion (C32). The tags of the alphabet are sorted into chosen and dropped ones by their text; codes of pairs (m, m) stand for arcs that pair a mark with itself.
* **C82 Unified compilation and restriction.** Model the branches of the compiler for unified compilation. Show that they compile what the compiler for one direction compiles for a file whose entries begin with their marks as texts, use the theorem for the compiler (C65 and its successors) on that file, the theorem for lt-restrict (C81) on its bytes, and compare deletion and erasure of marks with the visibility of entries.
* **C83 lt-trim keeps what the bilingual dictionary has.** Model lt_trim.cc with moveLemqsLast and copyWithTagsFirst. Show what union and minimisation do to the relation, that moveLemqsLast leaves a transducer without queues as it is, which strings the loops add, and use the theorem about trim (C50) for each section; then pass from numbers of symbols to their names and to the files.
* **C84 lt-compose makes the composition of two compiled dictionaries.** Model lt_compose.cc without jobs on the model of compose (C49). Show by induction over the sections that the growing alphabet keeps the meaning of all earlier codes, use the theorem about compose for each section, and pass from numbers of symbols to their names and to the files. Refute the promise of the manual for -a with two small files.
* **C85 The automaton of a list of patterns finds the least number of a pattern that fits.** Model buildTransducer on the model of Transducer. Name every state by the beginning of a pattern that leads to it and show by induction over the symbols that the arcs are exactly the ones between neighbouring names; then paths are walks, and walks spell what a beginning stands for. The automaton on top is that of C46. Refute the same for lists that are not tidy.
* **C86 A list of patterns stores what its user puts in.** Model the operations and keep as an invariant which vectors the list holds, in terms of the final alphabet (codes never change as it grows). Show that such lists are tidy, so that C85 applies. For labels, an induction over the parts of the sequence.
* **C87 A list of patterns survives its file.** Model write and read on the models of Alphabet, Compression and Transducer files, and combine their round trips with one for the map of numbers. For lists of a user, bound the symbols by the alphabet and the rows by the number of different symbols, and show that all weights are 0.
* **C88 lt-tmxcomp generalises the numbers of a unit without losing any.** Model the loops with the symbols that they skip or copy. Specify numbers by being longest, show that a text is read in one way as symbols and numbers, and relate the loop over the target to an inductive relation with the four cases of the code, which leaves no choice. Refute that numbers stay whole.
* **C89 The file of lt-tmxcomp holds the units of the translation memory and nothing else.** Model procTU on the texts of its variants. Show that trim, split, join and align_blanks do what a specification by concatenations says, that insertTU extends a tree whose words are the pairs of the units, and use the theorems on minimisation and files.
* **C90 What lt-tmxproc writes for a unit that it finds is the target with the numbers of the input.** Model filterFinalsTM on UTF-16 units, with reading beyond the numbers and overflow as undefined behaviour. Specify by segments with a slot behind each, show that cutting and searching find the slots, and combine it with the theorem of C88 that targets are restored. Refute it for targets with parentheses of their own.
* **C91 lt-paradigm lists the forms of a dictionary whose analyses match a pattern.** Model process, split_tag, expand and main of lt-paradigm on the model of trim. Show that the transducer built for a pattern reads exactly what the pattern stands for and that each of its states reaches the end, use C50_joins for the trimmed section, and show that the depth-first search lists every path that visits no state too often, which is all of them where lengths are bounded. Refute what does not hold by small files.
* **C92 lt-tmxproc replaces the segments of a text by their targets and copies the rest.** Model readTMAnalysis, tm_analysis and the loop over parts on the models of the buffer, of the states and of filterFinalsTM. State the output as a relation on lists of tokens that knows no buffers, positions or queues. Show that in every turn of the loop the buffer, the queue of blanks and the numbers are those of the tokens read, and follow the pieces of the text. Show that there is exactly one such output for texts that end with a break. Refute what does not hold by small memories.
* **C93 A translation memory compiled by lt-tmxcomp and applied by lt-tmxproc gives the targets of its units.** Show that the transducer of a compiled memory has exactly one path for each unit and none besides, before and after minimisation, and that the file loads as a graph with these paths. Translate the relation of C92 between tokens and output into one between units and output, in which no graph occurs. Compose C89 and C92. Decide by the sources of the units when lt-tmxproc refuses the memory.
* **C94 lookup gives exactly the analyses of a word.** Model the function with the pieces of the word and the step that it really calls, State::step(int, int). Characterise the results by paths. Derive the claim for case-sensitive processors without arcs for U+0001, and prove that all other processors find nothing.
* **C95 the SAO mode annotates each word once.** Model the mode with its buffer, blanks and positions. Define tokens of a text from the dictionary alone, as for C71. Prove that the loop writes them for texts that fit, by an invariant for the turns within a token. Prove for texts without a newline at the end that the last word is lost or the program does not end.
* **C96 lt-apply-acx adds the declared spellings and nothing else.** Model readACX on the tree of elements. Prove which equivalents its table holds, by induction over the elements. Extend C34 to the alphabets and row sizes after applyACX, then to all sections and to the written file as for C80.
* **C97 splitting large sections changes nothing that is analysed.** Add the counter to the model of the compiler. Prove that the events of a file are processed as those of the file with the entries in sections of their own, for all files. Derive the parts from C69. Refute the claim for weights.
* **C98 a separable dictionary compiles to what its entries stand for.** Model the branches of the compiler for separable dictionaries. Give each state a name: the pairs that lead to it, where a wildcard is not repeated. Prove that entries extend a tree with loops at wildcards, that minimising keeps its accepting paths, and that the last loop adds one arc to each final state. Refute the claim for equal wildcards after each other, and for entries that go on with a boundary where another one ends.
* **C99 command lines mean the same however they are written.** Model parse_args on a model of getopt_long with permutation. A command line is a list of items with their words; prove that the loop consumes the words of each item and leaves its options and files. Check that the options of every tool can be told apart. Refute that unknown long names give the usage message.
* **C100 lt-restrict -m keeps what can be seen.** Model the last loop of lt-restrict with minimisation on the model of C81. Use C29 for each section, show that the labels and weights of the result come from the section that was minimised, and translate languages of codes into paths of names. Show when the program ends instead.
* **C101 Threads of lt-compose share the alphabet.** Model the statements of Alphabet::operator() one by one and any number of threads that do them in any order. Show that nothing goes wrong if all pairs are there already, if there is one thread, or if one thread works after the other. Refute the claim for all alphabets and all new pairs: two threads get one code for two pairs, or one pair is added twice and later codes mean the wrong pair.
* **C102 What lt-proc does for its options.** Model main of lt_proc.cc up to the opening of the files on the model of the command line (C99), with the variables that it changes one after the other. State what is asked for as a set of families, and prove equality for all functions from names of options to truth values, by cases on the ten values that the code looks at. Model atoi and show which texts give which numbers.
* **C103 Command lines of lt-tmxcomp.** Model the loop over getopt_long with its permutation of the arguments, and main up to the call of parse. Prove for all lists of arguments when the program goes on and with what, by induction over the arguments: an option that has been read is first afterwards, and is then taken for the languages.
* **C104 Command lines of lt-comp.** Model main of lt_comp.cc up to the calls of the compilers on the model of the command line (C99), with stol and the two variables; whether a file can be opened and begins as XML is a parameter. Prove when compilation begins and with what, and which texts stol takes.
* **C105 The characters that lt-proc ignores and restores.** Model parseICX and parseRCX on the events of libxml2, and the calls of lt_proc.cc. Prove by induction over the events which characters are in the set and the map afterwards, with the last char element before an event as the invariant.

## What is modelled

| code | module |
|---|---|
| `compression.cc` (all coders, both stream kinds), `serialiser.h`, `deserialiser.h`, `endian_util.h` | `Compression`, `Serialiser` |
| `sorted_vector.cc`, `sorted_vector.hpp`, `match_node.cc` (search) | `SortedVec` |
| `alphabet.cc` | `Alphabet` |
| `transducer.cc` construction, closure, reversal, determinisation, minimisation, union, concatenation and stars, joins, inversion, relabelling, weights, copies, numbering; read, write | `Transducer`, `Labels`, `BinIO` |
| `transducer.cc`: `compose`, `composeLabel`, `trim` | `Product` |
| `trans_exe.cc`, `node.cc` (as graph), `file_utils.cc` (transducer sets) | `BinIO`, `State/Loaded`, `State/Unify` |
| `regexp_compiler.cc` | `Regex` |
| `state.cc` (run, closure, output, selection, compounds, pool) | `State` |
| `match_exe.cc`, `match_state.cc`, `match_node.cc` | `Match` |
| `buffer.h` | `Buffer` |
| `string_utils.cc`, `ustring.h` helpers | `Str`, `Data` |
| `expander.cc` after the XML reader | `Dict`, `Expander` |
| `compiler.cc` after the XML reader: `procNode`, `procEntry`, `insertEntryTokens`, `matchTransduction`, `procPar`, `valid`, minimisation of sections by threads; `<sdef>` | `Compiler` |
| `att_compiler.cc`: reading of files, graph, splitting, extraction of sections (the conversion of a weight from text is a setting) | `Att` |
| `att_compiler.cc`, `pattern_list.cc` (number and tag helpers) | `Att.Number`, `Pattern` |
| `fst_processor.cc`: escaping, merge, unmerge | `Merge` |
| `fst_processor.cc`: analysis with its reading, printing and null flushing; compounds and restored characters are in the model, but C71 supposes them off | `Proc` |
| `fst_processor.cc`: generation in all modes | `Gen`, on `Walk` (paths with alternatives) |
| `fst_processor.cc`: the bilingual mode | `Bil`, on `Gen` and `Walk` |
| `fst_processor.cc`: transliteration and postgeneration with their reading and queues | `Post`, on `Gen` and `Walk` |
| `fst_processor.cc`: `biltrans`, `biltransfull`, `biltransWithQueue`, `biltransWithoutQueue`, `compose`, `lookup` | `Trans`, on `Gen` and `Walk` |
| `fst_processor.cc`: `load`, `calcInitial`, `classifyFinals`, `initAnalysis`, `initGeneration`, `valid`; `lt_proc.cc`: the start of analysis and generation | `Load`, on `BinIO`, `Proc` and `Gen` |
| `compiler.cc`: `procAlphabet` after the XML reader, `write`; `lt_comp.cc` for a dictionary without options | `Chain`, on `Compiler`, `BinIO` and `Load` |
| `transducer.cc`: `show`, `escapeSymbol`; the loop of `lt_print.cc` (how numbers with a fraction are written is an argument) | `Print`, on `Att` |
| the splitting of sections in `compiler.cc` (`max_section_entries`) | `Split`, on `Compiler` |
| separable dictionaries in `compiler.cc` (`is_separable`) | `Sep`, on `Compiler` |
| `cli.cc` with the options and numbers of files of the tools that use it, on a model of glibc's `getopt_long` | `Cli` |
| `lt_proc.cc` up to the opening of the files, `atoi` | `Modes`, on `Cli` |
| `lt_tmxcomp.cc` up to the call of `parse` | `TmxCli` |
| `lt_comp.cc` up to the calls of `parse`, `std::stol` | `CompCli`, on `Cli` |
| `parseICX` and `parseRCX` in `fst_processor.cc`, on the events of libxml2, with their calls in `lt_proc.cc` | `CharFiles` |
| `acx.cc` on the tree of elements, `lt_apply_acx.cc` | `Acx`, on `Tools` and `Labels` |
| `lt_invert.cc`, `lt_append.cc` (without `-s`), `lt_restrict.cc`, after the options | `Tools`, on `Labels` and `BinIO`; `-m` in `Minimised` |
| `compiler.cc`: `symbolFilters`, the branches of `parse` and `procEntry` for `u` | `Unified`, on `Compiler`, `Chain` and `Tools` |
| `lt_trim.cc`; `transducer.cc`: `moveLemqsLast`, `copyWithTagsFirst` | `Trim`, on `Product` |
| `lt_paradigm.cc` | `Paradigm`, on `Product`, `Labels` and `Tools` |
| `readSAO`, `printSAOWord` and `SAO` of `fst_processor.cc`, `State::filterFinalsSAO` | `Sao`, on `Buffer`, `State` and `Proc` |
| `readTMAnalysis`, `tm_analysis` and `tm_wrapper_null_flush` of `fst_processor.cc`, `lt_tmxproc.cc` | `TmProc`, on `Buffer`, `State`, `Stream` and `Tmx` |
| `lt_compose.cc` without `LT_JOBS` | `Composed`, on `Product` and `Trim` |
| `alphabet.cc:85-97` in the threads of `lt_compose.cc` with `LT_JOBS` | `Shared` |
| `pattern_list.cc` | `Patterns`, on `Match`, `Pattern`, `Alphabet` and `BinIO` |
| `tmx_compiler.cc` from the texts of the variants on, `lt_tmxcomp.cc`, `State::filterFinalsTM` | `Tmx`, on `Transducer`, `Alphabet` and `BinIO` |
| `input_file.cc`, `stream_reader.cc` | `Input`, `Stream` |

## What is not modelled

* The command line tools (`lt_*.cc`) except the loop of `lt_print.cc`, the starts of `lt_proc.cc` and `lt_comp.cc`, the calls of `lt_comp.cc` for a dictionary and `lt_invert.cc`, `lt_apply_acx.cc`, `lt_append.cc`, `lt_restrict.cc`, `lt_trim.cc`, `lt_compose.cc` (with `LT_JOBS`: only the requests for codes of pairs), `lt_paradigm.cc`, `lt_tmxcomp.cc`, `lt_tmxproc.cc`, and the files of `lt_merge.cc`; usage texts, localisation.
* `xml_parse_util.cc` and the parts of `compiler.cc` and `expander.cc` that pull events from libxml2.
* Locale handling, ICU's character tables (parameters where they are needed), ICU's number formatting.
* Memory exhaustion, write errors of the operating system, files larger than the address space.
* Rounding of floating point: weights are an abstract ordered type, except in the coder for doubles, which is exact.

## Disagreements between the code and what a user may expect

Each was found while proving; those with a theorem ending in `_false` are proved with a concrete witness.

Files and coders
* The coder of doubles keeps 30 bits of the mantissa, so weights change when written and read.
* `Deserialiser<UChar>` returns a `char`; the text of an alphabet read with `deserialise` loses code units above 127.
* `Alphabet::deserialise` bounds its second loop by the wrong size.
* A truncated `FILE` gives zero bytes to `multibyte_read` instead of an error in several places.
* The feature header is recognised with `fgetpos`, which fails on pipes.
* Reading a `TransExe` into an object that already holds one keeps the old arcs.
* A table entry that is not in the alphabet or a final state beyond the number of states is undefined behaviour of the
  run-time loader, not an error.
* `writeTransducerSet` with a set of code points writes one code unit per letter.

Alphabet
* `setSymbol` renames a symbol in one of two tables only.
* `tokenize` gives 4294967295 (−1) for letters outside the basic plane and for unknown tags; `symbol_iter` reads one unit
  past its view.

Transducers
* `minimize` ends the process when final states exist but nothing is accepted, and can leave one state too many.
* `determinize` can take the weight of a final state from the wrong state.
* `reverse` and `insertTransducer` drop the weight of a single final state.
* `unionWith` is wrong when arcs enter the initial state; `appendDotStar` when arcs leave a final state.
* `epsilonizeSymbols` with the symbol 0 does not end.
* `compose` replaces an output tag that the receiving alphabet does not know by the empty symbol (`C49_unknown_tag_false`) and, because
  `linkStates` keeps the first weight, loses the weight of an arc that competes with another (`C49_weights_false`).
* `trim` loses the weight of a final state behind a group (`C50_group_weight_false`), and after an arc `#` compares the remaining arcs
  of the state with the wrong state of the trimmer, so that words are lost depending on the order of the label codes
  (`C50_queue_false`); it makes states that nothing leads to.
* `updateAlphabet` for single symbols reads the pair table with symbols as indices.

Regular expressions
* Text after an unmatched parenthesis is ignored; the empty expression and a trailing backslash are undefined; a negated
  class only contains codes below 256.

Running
* Arcs with empty input and output lose their weight; a cycle of such arcs does not end.
* The limit on weight classes counts weights differently from its description; equal analyses use up the limit on analyses.
* `step_case_override` repeats states; the element count of compounds ignores separators at the ends.
* `unifyFinals` enlarges the vector of nodes while pointers to its elements are kept.
* `State::init` leaks, `State::merge` of an object with itself is undefined.

Buffers and matching
* The copy constructor of `Buffer` copies bytes, not elements; restoring a position at the end of the buffer and going back
  by the whole capacity are taken for the empty state.
* `MatchState` holds at most 1023 alive nodes; `MatchExe` copies keep pointers into the original.

Strings
* `trim` of space only reads past the view; `split` with an empty delimiter and `substitute` of an empty text do not end;
  `merge_wblanks` throws on a second argument of one unit.

Streams
* U+FFFF in the input is taken for the end of the file.
* Text that ends inside a block gets U+FFFF appended; a backslash at the end of the file is not reported.

* `lt-merge` does not quote the blanks inside a span, drops a span that is open at the end of the file, and drops chunks.

Dictionaries
* `lt-expand` loses pairs: of entries restricted by `v`, `vl` or `vr` that use paradigms, and of unrestricted entries with two
  paradigms of which an earlier one has pairs for one direction.
* The compiler puts the weight of an entry on every text in it, and on no arc if it has only paradigms or if its letters are in the
  transducer already (`C56_weight_twice_false`, `C56_weight_lost_false`, `C56_weight_shared_false`). The weight of a token that is
  not a text is not initialised (entry_token.cc:20-24) and is used for paradigms at the end.
* An empty last paradigm stays the current one and takes the entries of the sections (`C69_empty_paradigm_false`).
* A text that follows a paradigm with a loop enters that loop (`C69_after_expression_false`); equivalent characters join entries
  (`C69_acx_false`); `lt-proc -I -i file` still ignores the soft hyphen (`C105_no_default_false`); characters outside the basic plane in files for `-i` and `-r` have no
  effect (`C105_outside_false`); a `char` without a value makes null characters ignored (`C105_no_value_false`); a `restore-char` before any `char` reads a member that is
  not set (`C105_order_false`); an upper case letter outside ASCII that is listed for `-r` is no longer read as its lower case letter (`C105_fold_false`); `lt-comp` ignores the file of equivalent characters in all modes but `lr` (`C104_acx_false`), takes `LT_JOBS=0` as a wish for threads
  (`C104_jobs_false`), and ends with an exception if `LT_MAX_SECTION_ENTRIES` is not a number (`C104_variable_false`); no command line can set an option of `lt-tmxcomp` (`C103_options_false`), and one language in place of two is taken twice
  (`C103_one_language_false`); `lt-proc --decompose-compounds`, which is in the manual, reads outside the table of options (`C102_manual_false`); options for the kind of
  generation are ignored without a message in the other modes (`C102_kinds`); `lt-append -s` takes letters for codes of pairs and reads outside the table (`C80_single_false`); the threads of `lt-compose` with `LT_JOBS` write to one alphabet without a lock, and codes can then mean the wrong pair
  (`C101_clash_false`, `C101_twice_false`); `lt-restrict -m` ends with an error if a section has lost all its entries (`C100_empty_false`); a long option that is misspelt or abbreviated makes `getopt_long` read beyond the vector of options, which has no null entry at its end
  (`C99_unknown_long_false`), `-h` ends with the status for failure (`C99_help`), and lt-merge with one file reads the standard input (`C99_merge_false`); in separable dictionaries `<t/><t/>` accepts a single tag (`C98_adjacent_false`), and the boundary that is added to one entry can be accepted
  after another (`C98_shared_false`); with `-j` an entry of another weight can survive that is dropped without it (`C97_weights_false`); `valid` misses leading spaces when the space is a loop (`C69_spaces_false`).
* A filtered entry written `<e/>` takes the nodes after it up to the next `</e>` with it.
* A paradigm whose entries are all passed over is reported as undefined.
* `tagCount` and `tagAt` are wrong for patterns starting with a dot and negative indices; `fast_stoi` accepts the empty text.

AT&T files
* The initial state of a file with one transducer is 0 whatever its first line says (`C70_start_false`); of two lines that differ in
  their weight the first one counts (`C70_weight_false`).
* Splitting into words and punctuation, the default of `lt-comp`, can lose words of a file without any punctuation
  (`C70_split_false`), because the types of arcs are not passed on through states that were visited before.
* A separator at the beginning of the file or after another one ends the process, since the number of columns is looked at first.
* `clear` does not reset the final states, the letters and the initial state, so that a compiler used twice mixes two files.
* The set of letters is made of 16-bit units cut from code points.

Analysis
* Without a newline (or the like) at the end, text can be lost when the analyser has read ahead (`C71_end_false`).
* A tag in the input that the alphabet does not know has the code 0 and ends the analysis (`C71_tag_false`).
* An ignored character right before the end of the file makes U+FFFF appear in the output (`C71_ignored_false`).
* A space that is not U+0020 is replaced by the next blank in the queue when the analyser has read ahead over both (`C71_space_false`).
* `sf.substr(0, 1)` writes half of a surrogate pair (`C71_pair_false`).
* An entry that starts with a space and does not match makes the analyser write the same empty unknown word again and again.
* The flags for postblank and preblank sections are not reset by a longer match of an inconditional section: that word gets the space of
  the shorter one. The specification of C71 describes this (`After`, `Before`).
* A superblank before a plain space inside a word that is known moves after the word with the space, which is in the word already.

Generation
* Escapes are doubled in units that are passed on (`C72_escape_false`), so that the next program reads another word; tags that come first in a
  unit or after an escaped backslash are not removed (`C72_tags_false`); in the mode for careful case units with the mark `@`
  disappear (`C72_lost_false`); whether a form is written in capitals is decided by the second letter of the unit alone (`C72_capitals_false`).

Bilingual mode
* Marks other than `*` are lost (`C73_marks_false`); the escaped mark of a unit becomes a mark (`C73_escape_false`); with surface forms, units
  with one reading disappear (`C73_lost_false`); the rest that is added to a translation can be letters of another word
  (`C73_letters_false`); arcs for any character read tags too (`C73_any_false`); chunks are dropped (`C73_chunks_false`).
* The second attempt with lower-case letters can only find something when case folding was turned off in the first because of the number of
  states: otherwise the first attempt reads all that the second does (`Verif.Bil.walk_low`).

Postgeneration and transliteration
* An entry whose output is longer than its input can be applied to its own output for ever (`C74_endless_false`), and the output of an entry can be
  replaced again (`C74_again_false`): the search goes on at a position that is counted in the old text.
* After an entry that makes the text shorter, letters are skipped (`C74_skip_false`), for the same reason.
* A file that does not end with a blank gets U+FFFF after its last word (`C74_end_false`).
* An escaped space takes the place of a blank, so that the blanks behind it move by one word (`C74_escaped_space_false`), and when there is none
  the front of an empty queue is read.
* Tags that are not in the alphabet are lost (`C74_unknown_tag_false`), and so are word-bound blanks without a word (`C74_empty_word_false`).
* `step_case_override` with case folding adds the states reached by the lower-case letter also when they are reached already, so that the number of
  states can double with each capital; above 65535 case folding is turned off.

Printing of transducers
* `lt-print` does not write the initial state. With one transducer `lt-comp` starts in state 0, with several in the source of the first line; both are
  wrong for other transducers (`C76_start_false`, `C76_leads_false`).
* Without `--hfst` the letter ε is written as the empty symbol is (`C76_epsilon_false`). A letter that is a line feed, or a tab without `--hfst`,
  breaks the line.

Tools and chains of programs
* `readACX` keeps only the first `char` element with equivalents of a character (`C96_twice_false`).
* A letter outside the Basic Multilingual Plane becomes another letter when a file is read and written by `lt-invert`, `lt-append` or `lt-restrict`
  (`C80_letters_false`).
* `lt-comp lr` keeps an entry with a variant of the left side, `lt-comp u` followed by `lt-restrict lr` drops it unless the variant is given with `-l`
  (`C82_left_false`).
* An analysis that begins with `*`, `#`, `=` or `%` is not escaped by the analyser and taken for a mark by the generator (`C79_mark_false`).
* `lt-trim` lets tags through at every final state of the bilingual dictionary, not only at the end: with the entries `a` and `ab` the analysis
  `a<n>b` is kept (`C83_after_false`).
* After a join `+` the trimmer goes back to its start from whatever state it is in, final or not. So what comes before a join need
  only be the beginning of an entry: with the entry `a<n>` alone the analysis `a+a<n>` is kept (`C50_join_false`, `C83_join_false`).
  The trimmer may also read the `+` as a letter of its own.
* With `-a`, `lt-compose` keeps what comes before the match but nothing after it: the manual promises `.*` on both sides. `ab:a<n>b` composed with
  `a<n>:x<n>` has no `ab:x<n>b` (`C84_anywhere_false`).
* Where one sequence of `pattern_list.cc` has a queue in the middle (it comes from a label) and another goes on without one at the same place, the arcs
  around the queue and the tree get mixed: fitting words are lost or other words are found, depending on the order of the numbers (`C85_mixed_false`,
  `C85_spurious_false`).
* A final state has the number of the first pattern only; if that rule is banned, `classifyFinals` does not find the other patterns for the same words
  (`C85_banned_false`).
* A label without patterns in the middle of a sequence drops the part of the sequence before it, and the rest is stored as if it were the whole
  (`C86_no_label_false`).
* `PatternList::read` does not look at the name of the transducer, and it leaves the patterns of the list that is read into.
* `TMXCompiler::align` copies a number that the source lacks with a loop that ends at `nl` instead of `i + nl`: a number nearer to the beginning than it is
  long is split, and its end may become a reference (`a1234` with `4` in the source: `a123@(1)`, `C88_split_false`).
* A target of a translation memory with `@(5)` in it makes `filterFinalsTM` read beyond the numbers of the input (`C90_literal_false`); `(#)` in a target
  becomes a space (`C90_mark_false`).
* `lt-paradigm`: a tag that the dictionary does not know is left out of the pattern (`C91_unknownTag_false`), and so is `<|a|b>` if none of its tags is
  known (`C91_unknownChoice_false`); `\*` still stands for any letters (`C91_escapedStar_false`); `-e TAG`, said to disregard paths with the tag, only
  keeps `<*>` from matching it (`C91_excluded_false`); a dictionary with a cycle is listed in part without a warning (`C91_cycles_false`).
* `lt-tmxproc`: a segment or the beginning of one at the end of the text is dropped (`C92_end_false`); escaped characters in words lose their backslash
  (`C92_escape_false`); without `-s` a segment before the end of a line is not replaced (`C92_newline_false`); a segment that begins inside the beginning
  of another one is not found (`C92_inside_false`); the numbers of a part that ends with a number stay in the list, so that the next part gets wrong
  numbers (`C92_parts_false`); where a segment goes on after another one, numbers are read a second time from the buffer without their text and
  `numbers[numbers.size() - 1]` is evaluated for an empty vector (`C92_longer_false`).
* `lookup` passes the truth value of `beCaseSensitive` to `State::step(int, int)`, as `biltrans` does: by default no word is ever found (`C94_never_false`).
* `lt-proc -s` loses the last word of a file that does not end with a newline or another character outside words (`C95_last_word_lost`); if the last word is unknown, or a CDATA section is not closed, it does not end (`C95_last_unknown_endless`, `C95_open_section_endless`).
* `lt-proc -s` writes text twice where a multiword begins but does not go on (`C95_written_twice_false`), and moves CDATA sections or loses spaces beside them (`C95_section_moved_false`, `C95_space_lost_false`).
* `lt-tmxcomp` trims the sides of a unit before it takes out marks: a source that starts with a mark and a space is stored with the space, and `lt-tmxproc`
  refuses a memory with such a unit as a whole (`C93_spoilt_false`; `C93_refused` shows that this is the only reason).

Other observations without theorems
* `Pattern` counts tags wrongly for patterns that begin with a dot.
* `recognise` looks up characters with a search for a single unit.
* In `copyWithTagsFirst` (transducer.cc:886) one map is given an entry for the initial state of the part that belongs to the other map.
* With several threads, `lt-compose` changes an alphabet that the threads share.
* `int_deserialise` shifts by more than the width of the type for sizes above 8.
* `biltrans`, `biltransfull` and `biltransWithoutQueue` pass a truth value where a symbol is expected: nothing is translated when case is ignored, else upper-case letters are not read as lower-case ones (C75). They and `biltransWithQueue` cut off the last character of each unit, which is the `>` of its last tag.
* The units that `TMXCompiler::align` leaves as they are keep their digits in the source, but `readTMAnalysis` reads every run of digits as `<n>`: such units are never found. The compiler takes `1,000.5` for one number, `readTMAnalysis` for three. Digits outside of ASCII are a stream error there.
* The check of `insertTU` for a mark at the beginning never holds, for `align_blanks` has removed all marks; its two branches do the same; a mark at the end of a text gets lost in `split`.
