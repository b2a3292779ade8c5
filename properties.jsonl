{"id": "C01", "title": "Flag diacritic spelling is parsed exactly", "statement": "A string is recognised as a flag diacritic exactly when it is '@', one of the operators P N D R C U, '.', a feature, optionally '.' and a value, '@' (the value may be left out only for R, D and C). Operator, feature and value returned for a recognised string spell that same string again.", "quantifier": "every string (any length, any characters) and every operator/feature/value triple", "why_tests_cant": "There are infinitely many spellings; the recogniser works with character positions and the boundary cases (empty feature, several dots, '@' inside) are not enumerable by tests.", "anchors": ["libhfst/src/HfstFlagDiacritics.cc: FdOperation::is_diacritic, get_operator, get_feature, get_value", "libhfst/src/HfstLookupFlagDiacritics.cc: is_genuine_diacritic, split_diacritic"]}
{"id": "C02", "title": "Flag diacritic state follows the history of operations", "statement": "After any sequence of flag operations, the value of a feature is what the last successful setting operation on that feature left; requirement/disallow/unification operations are decided by that value only; operations on one feature never change another; a refused operation leaves every feature as it was.", "quantifier": "every finite sequence of flag operations over any features and values, from the initial state", "why_tests_cant": "The state after a sequence depends on the whole history; tests cover a handful of short histories.", "anchors": ["libhfst/src/HfstFlagDiacritics.h: FdState::apply_operation, reset"]}
{"id": "C03", "title": "Both flag engines accept the same paths", "statement": "A sequence of symbols passes the flag check of the string-based engine (used by lookup in basic transducers) if and only if it passes the number-based engine (used by optimized lookup and path extraction), for every table of flags.", "quantifier": "every finite sequence of symbols, with any number of flags, whose flags spell a non-empty value or no value", "why_tests_cant": "Two separately written implementations must agree on unboundedly long inputs.", "anchors": ["libhfst/src/HfstFlagDiacritics.h: FdTable::define_diacritic, FdState::apply_operation", "libhfst/src/HfstLookupFlagDiacritics.cc: FlagDiacriticTable::insert_symbol, is_valid_string"]}
{"id": "C04", "title": "Validity check of a flag sequence answers correctly", "statement": "Asking a flag table whether a symbol sequence is valid returns true exactly when no flag operation of the sequence is refused.", "quantifier": "every flag table and every symbol sequence", "why_tests_cant": "Needs all sequences; the shipped code has no test of the negative answer.", "anchors": ["libhfst/src/HfstFlagDiacritics.h: FdTable::is_valid_string"]}
{"id": "C05", "title": "Removing flags removes exactly the flags", "statement": "The result of removing flags from a symbol vector, a pair vector or a path contains no flag, keeps all other elements in order and multiplicity, and a second removal changes nothing.", "quantifier": "every vector of symbols / symbol pairs / every path", "why_tests_cant": "Unbounded inputs; order and multiplicity preservation is a statement about all lists.", "anchors": ["libhfst/src/HfstSymbolDefs.cc: remove_flags", "libhfst/src/HfstLookupFlagDiacritics.cc: filter_diacritics"]}
{"id": "C06", "title": "Tokenization loses nothing", "statement": "The tokens of a string concatenated in order, with the registered skip symbols put back at the points where they were dropped, give back the input byte for byte; no token is empty; the call ends on every input.", "quantifier": "every byte string without NUL and every set of multicharacter and skip symbols", "why_tests_cant": "All inputs and all symbol sets; a tokenizer that drops or repeats a byte only for particular symbol combinations passes finite tests.", "anchors": ["libhfst/src/HfstTokenizer.cc: tokenize, tokenize_one_level, get_next_symbol_size"]}
{"id": "C07", "title": "Tokenization takes the longest registered symbol", "statement": "At each position the chosen token is the longest registered multicharacter symbol that the remaining input starts with, and a single character if there is none.", "quantifier": "every input, position and symbol set", "why_tests_cant": "Longest-match holds or fails depending on prefix relations inside the symbol set, which cannot be enumerated.", "anchors": ["libhfst/src/HfstTokenizer.cc: MultiCharSymbolTrie::add, find, HfstTokenizer::get_next_symbol_size"]}
{"id": "C08", "title": "Pair tokenization keeps both sides", "statement": "Tokenizing an input and an output string into symbol pairs keeps both token sequences: removing the epsilon padding from either side gives that side's own tokens, the number of pairs is the larger token count, and no pair is padded on both sides.", "quantifier": "every pair of strings and every symbol set", "why_tests_cant": "Unbounded lengths and length differences.", "anchors": ["libhfst/src/HfstTokenizer.cc: tokenize(input, output)"]}
{"id": "C09", "title": "Flag alignment keeps both sides", "statement": "Aligning flags of two tokenized strings keeps every non-flag symbol of both sides in order, adds no non-flag symbol other than epsilon to either side, and every flag that appears on either side occurs in the result on both sides.", "quantifier": "every pair of token sequences and every placement of flags", "why_tests_cant": "All interleavings of flags and symbols; four branches interact.", "anchors": ["libhfst/src/HfstTokenizer.cc: tokenize_and_align_flag_diacritics"]}
{"id": "C10", "title": "Space-separated tokenization inverts joining by spaces", "statement": "Splitting a space separated line gives exactly the maximal runs of non-space bytes, in order.", "quantifier": "every line", "why_tests_cant": "All inputs, including leading, trailing and repeated spaces.", "anchors": ["libhfst/src/HfstTokenizer.cc: tokenize_space_separated"]}
{"id": "C11", "title": "AT&T text symbols round trip", "statement": "A symbol written to AT&T text and read back is the same symbol, for every symbol in which the replacement codes themselves do not occur; symbols containing a code are identified explicitly as not preserved.", "quantifier": "every symbol string", "why_tests_cant": "Replacement passes interact (one pass can create a match for another); only all strings settle it.", "anchors": ["libhfst/src/implementations/HfstBasicTransducer.cc: write_in_att_format, add_att_line", "libhfst/src/string-utils.cc: replace_all"]}
{"id": "C12", "title": "AT&T text of a transducer reads back as the same transducer", "statement": "Writing a transducer as AT&T text and reading it gives a transducer with the same states, transitions, weights and final weights.", "quantifier": "every transducer whose symbols satisfy C11 and fit the reader's field and line limits", "why_tests_cant": "Unbounded graphs; line classification depends on field counts.", "anchors": ["libhfst/src/implementations/HfstBasicTransducer.cc: write_in_att_format, add_att_line, read_in_att_format"]}
{"id": "C13", "title": "Prolog symbols round trip", "statement": "Escaping a symbol for prolog output and undoing the escape gives the same symbol, except for the listed special spellings.", "quantifier": "every symbol string", "why_tests_cant": "All strings, including those made of quotes, backslashes and percent signs.", "anchors": ["libhfst/src/implementations/HfstBasicTransducer.cc: prologize_symbol, deprologize_symbol"]}
{"id": "C14", "title": "Pair-string input is split as documented", "statement": "In pair-string input a:b yields the pair (a,b), a symbol not part of such a pair yields an identity pair, an unescaped stray colon is refused, and epsilon spellings become epsilon; the string:string reading pads the shorter side with epsilon and loses nothing.", "quantifier": "every token sequence", "why_tests_cant": "All sequences; pairs overlap when several colons follow each other.", "anchors": ["libhfst/src/HfstStrings2FstTokenizer.cc: make_pair_vector, tokenize_string_pair, is_pair_input_symbol"]}
{"id": "C15", "title": "Graph edits keep the transducer well formed", "statement": "After any sequence of public edits starting from a new transducer, every transition leads to an existing state, every final state exists, and every symbol on a transition is in the alphabet, as are epsilon, unknown and identity.", "quantifier": "every finite sequence of edit operations with any arguments", "why_tests_cant": "An invariant over all histories of calls.", "anchors": ["libhfst/src/implementations/HfstBasicTransducer.cc: add_state, add_transition, remove_transition, set_final_weight, remove_final_weight, add_symbol_to_alphabet, prune_alphabet, sort_arcs, substitute"]}
{"id": "C16", "title": "Removing a transition removes exactly the matching ones", "statement": "Removing a transition deletes every transition from the given state with the same target, input and output (whatever the weight) and no other.", "quantifier": "every transducer, state and transition", "why_tests_cant": "Erase-while-iterating errors show up only for particular adjacent duplicates.", "anchors": ["libhfst/src/implementations/HfstBasicTransducer.cc: remove_transition"]}
{"id": "C17", "title": "Removing symbol pairs removes exactly those transitions", "statement": "Removing all transitions with a given symbol pair leaves no transition with that pair and keeps all others.", "quantifier": "every transducer and pair", "why_tests_cant": "The shipped loop erases while iterating and fails only when two matches are adjacent.", "anchors": ["libhfst/src/implementations/HfstBasicTransducer.cc: remove_transitions"]}
{"id": "C18", "title": "Swapping two state numbers only renames states", "statement": "Swapping two state numbers gives the same transducer up to that renaming: transitions, final states and final weights are carried over.", "quantifier": "every transducer and every two states", "why_tests_cant": "Depends on which of the two states are final; all graphs are needed.", "anchors": ["libhfst/src/implementations/HfstBasicTransducer.cc: swap_state_numbers"]}
{"id": "C19", "title": "Symbol substitution renames along every path", "statement": "After substituting one symbol for another (on the input side, output side or both) the accepted weighted paths are exactly the old ones with that symbol renamed on those sides, same weights.", "quantifier": "every transducer, symbols and sides, every path", "why_tests_cant": "All paths of all graphs, including cyclic ones.", "anchors": ["libhfst/src/implementations/HfstBasicTransducer.cc: substitute(old,new,input_side,output_side), substitute(HfstSymbolSubstitutions), substitute(HfstSymbolPairSubstitutions)"]}
{"id": "C20", "title": "Adding a path to a trie adds exactly that path", "statement": "Disjuncting a single symbol-pair sequence with weight w into a deterministic tree transducer gives a transducer that accepts exactly the old sequences plus the new one, and the weight of the new one is the smaller of w and its old weight; all other weights are unchanged.", "quantifier": "every tree-shaped transducer built by such calls, every sequence and weight; every sequence of such calls", "why_tests_cant": "An invariant over all histories of insertions.", "anchors": ["libhfst/src/implementations/HfstBasicTransducer.cc: disjunct, disjunct(spv,it,s)"]}
{"id": "C21", "title": "Completion makes the automaton total and keeps its language", "statement": "Completing an automaton gives each state a transition for every non-special alphabet symbol and does not change which weighted strings are accepted; a transducer that maps a symbol to a different one is refused.", "quantifier": "every automaton and every string", "why_tests_cant": "All strings through all graphs.", "anchors": ["libhfst/src/implementations/HfstBasicTransducer.cc: complete, is_special_symbol"]}
{"id": "C22", "title": "Free insertion accepts exactly the interleavings", "statement": "After inserting a symbol pair freely, a sequence is accepted with weight v exactly when deleting some occurrences of that pair leaves a sequence accepted before, the weight being increased by the given weight per deleted occurrence.", "quantifier": "every transducer, pair, weight and sequence", "why_tests_cant": "All interleavings of unbounded sequences.", "anchors": ["libhfst/src/implementations/HfstBasicTransducer.cc: insert_freely"]}
{"id": "C23", "title": "Substituting a pair by a transducer splices in its paths", "statement": "After substituting a symbol pair with a transducer, the accepted weighted sequences are exactly those obtained from an old one by replacing each occurrence of the pair by some sequence accepted by the substituted transducer, weights added.", "quantifier": "every pair of transducers, every pair and path", "why_tests_cant": "All paths, all numbers of occurrences; the shipped loop has undefined behaviour only when a state has two matching transitions.", "anchors": ["libhfst/src/implementations/HfstBasicTransducer.cc: substitute(sp,graph), add_substitution, substitute(SubstMap,harmonize)"]}
{"id": "C24", "title": "Infinite ambiguity is decided correctly", "statement": "The transducer is reported infinitely ambiguous exactly when some reachable state lies on a cycle of transitions that consume no input.", "quantifier": "every transducer", "why_tests_cant": "A search with a handled-set: correctness is a statement over all graphs, not over samples.", "anchors": ["libhfst/src/implementations/HfstBasicTransducer.cc: is_infinitely_ambiguous(state,...), is_infinitely_ambiguous()"]}
{"id": "C25", "title": "Lookup returns only real analyses", "statement": "Every result of looking up a string is the label sequence of an accepting path whose input side spells the string (epsilons and flags removed, unknown and identity standing for symbols outside the alphabet), with the weight of that path, with a valid flag sequence, within the weight limit.", "quantifier": "every transducer, input string, weight limit and result limit", "why_tests_cant": "All graphs and inputs, including cyclic ones.", "anchors": ["libhfst/src/implementations/HfstBasicTransducer.cc: lookup, is_possible_transition, push_back_to_two_level_path, add_to_results"]}
{"id": "C26", "title": "Lookup returns all analyses up to the epsilon bound", "statement": "If no result limit is given, every accepting path for the input that does not repeat a state within a run of input-epsilon steps is among the results.", "quantifier": "every transducer, input string and accepting path", "why_tests_cant": "All paths; pruning errors only show on particular cycles.", "anchors": ["libhfst/src/implementations/HfstBasicTransducer.cc: lookup", "libhfst/src/implementations/HfstEpsilonHandler.cc: can_continue, push_back, pop_back"]}
{"id": "C27", "title": "Lookup ends on every transducer", "statement": "Lookup with a finite epsilon-cycle bound ends on every transducer, also one with epsilon cycles.", "quantifier": "every transducer and input", "why_tests_cant": "Termination cannot be tested.", "anchors": ["libhfst/src/implementations/HfstBasicTransducer.cc: lookup", "libhfst/src/implementations/HfstEpsilonHandler.cc: can_continue"]}
{"id": "C28", "title": "Intersection accepts the common paths with added weights", "statement": "The intersection of two deterministic transducers accepts exactly the label sequences that both accept, with the sum of the two weights.", "quantifier": "every two transducers and every label sequence", "why_tests_cant": "All sequences through all pairs of graphs.", "anchors": ["libhfst/src/implementations/HfstBasicTransducer.cc: intersect, find_matches, handle_match, find_target_state"]}
{"id": "C29", "title": "Path length and topological distance are correct", "statement": "For an acyclic transducer the longest-path answer equals the largest number of transitions on a path from the start to a final state.", "quantifier": "every acyclic transducer", "why_tests_cant": "All graphs; the sort moves states between distance sets.", "anchors": ["libhfst/src/implementations/HfstBasicTransducer.cc: topsort, longest_path_size, path_sizes", "libhfst/src/implementations/HfstBasicTransducer.h: TopologicalSort"]}
{"id": "C30", "title": "Harmonization keeps the meaning of unknown and identity", "statement": "After harmonizing two transducers both have the same (non-flag) alphabet and each still describes the same set of concrete symbol-pair sequences, where unknown and identity stand for symbols outside the transducer's own alphabet.", "quantifier": "every two transducers and every concrete sequence", "why_tests_cant": "All alphabets and sequences; the expansion has several quadratic cases.", "anchors": ["libhfst/src/HarmonizeUnknownAndIdentitySymbols.cc: harmonize_identity_symbols, harmonize_unknown_symbols"]}
{"id": "C31", "title": "Symbol numbering is stable and one-to-one", "statement": "Whatever symbols have been numbered before and in whatever order, number and symbol determine each other, numbers already given never change, and epsilon, unknown and identity are always 0, 1 and 2; asking for a number never given is refused.", "quantifier": "every sequence of numbering requests", "why_tests_cant": "A property of all call histories of a global table.", "anchors": ["libhfst/src/implementations/HfstTropicalTransducerTransitionData.cc: get_number, get_symbol"]}
{"id": "C32", "title": "A rule pair acts as the intersection of its rules", "statement": "For deterministic rules whose identity transitions have identity on both sides, the transitions of a rule pair (or of a pair of pairs, and so on) on an input symbol are exactly the pairs of transitions of the two rules with equal output symbol, weights added; a state number always denotes the same pair of rule states, whatever was asked before.", "quantifier": "every two deterministic rules and every sequence of requests", "why_tests_cant": "Lazily built state: depends on all request histories.", "anchors": ["libhfst/src/implementations/compose_intersect/ComposeIntersectRulePair.cc: compute_transition_set, get_state, get_transitions, get_final_weight", "libhfst/src/implementations/compose_intersect/ComposeIntersectFst.cc: get_transitions"]}
{"id": "C33", "title": "Compose-intersect result is the composition", "statement": "Composing a lexicon with rules gives a transducer that accepts exactly the (input, output) sequences for which the lexicon maps input to some middle and the rules map middle to output, weights added.", "quantifier": "every lexicon, every rule transducer, every path", "why_tests_cant": "A worklist construction; all graphs and paths.", "anchors": ["libhfst/src/implementations/compose_intersect/ComposeIntersectLexicon.cc: compose_with_rules, compute_state, compose, lexicon_skip_symbol_compose, rule_skip_symbol_compose, set_final_state_weights"]}
{"id": "C34", "title": "Optimized-lookup file header round trips", "statement": "A header written to a binary optimized-lookup file is read back with equal fields; a file with a property field other than 0 or 1, or that is too short, is refused.", "quantifier": "every header value and every byte sequence", "why_tests_cant": "All byte sequences, including truncated ones.", "anchors": ["libhfst/src/implementations/optimized-lookup/transducer.h: TransducerHeader"]}
{"id": "C35", "title": "Optimized-lookup alphabet and tables round trip", "statement": "The alphabet, index table and transition table written to a binary file are read back equal; in a file without weights only the finality of a final index entry is kept, and its weight becomes 1. A file that is cut off anywhere is refused.", "quantifier": "every alphabet of NUL-free symbols and every table", "why_tests_cant": "Unbounded tables; every entry layout.", "anchors": ["libhfst/src/implementations/optimized-lookup/transducer.h: TransducerAlphabet, TransitionIndex, TransitionW, TransitionWIndex, TransducerTable", "libhfst/src/implementations/optimized-lookup/transducer.cc: read, write"]}
{"id": "C36", "title": "Header flags can be set and cleared", "statement": "Setting a header property to a value and asking for it gives that value, and no other property changes.", "quantifier": "every header, property and value", "why_tests_cant": "All states; the shipped code ignores the value.", "anchors": ["libhfst/src/implementations/optimized-lookup/transducer.h: TransducerHeader::set_flag, probe_flag"]}
{"id": "C37", "title": "Optimized-lookup input encoding takes the longest symbol", "statement": "Reading one input symbol consumes exactly the longest known symbol that the rest of the input starts with and returns its number; if no symbol fits, nothing is consumed.", "quantifier": "every symbol set and input", "why_tests_cant": "Backtracking in a letter trie depends on prefix relations of the symbol set.", "anchors": ["libhfst/src/implementations/optimized-lookup/transducer.cc: OlLetterTrie::add_string, find_key, Encoder::read_input_symbol, find_key"]}
{"id": "C38", "title": "Index packing never mixes states", "statement": "In the converted tables, looking up a state and an input symbol finds exactly that state's transitions with that symbol: entries of different states never collide, however they were packed.", "quantifier": "every transducer (any number of states, symbols, any packing decisions)", "why_tests_cant": "Collisions depend on the global packing of all states.", "anchors": ["libhfst/src/implementations/ConvertOlTransducer.cc: hfst_basic_transducer_to_hfst_ol, get_states_and_symbols", "libhfst/src/implementations/optimized-lookup/convert.h: StatePlaceholder, IndexPlaceholders"]}
{"id": "C39", "title": "Optimized lookup finds what the transducer accepts", "statement": "Optimized lookup returns for an input exactly the outputs of the accepting paths of the tables with that input (flags respected, weights summed), as long as no input-epsilon cycle is met.", "quantifier": "every well-formed table set and input", "why_tests_cant": "All tables and inputs.", "anchors": ["libhfst/src/implementations/optimized-lookup/transducer.cc: get_analyses, try_epsilon_transitions, try_epsilon_indices, find_transitions, find_index, note_analysis"]}
{"id": "C40", "title": "Reading transitions of a state stays inside the tables", "statement": "Enumerating the transitions of a state of a converted transducer never reads outside the index and transition tables.", "quantifier": "every converted transducer and state", "why_tests_cant": "Undefined behaviour is not observable reliably by tests.", "anchors": ["libhfst/src/implementations/optimized-lookup/transducer.cc: get_transitions_from_state", "libhfst/src/implementations/ConvertOlTransducer.cc: hfst_basic_transducer_to_hfst_ol"]}
{"id": "C41", "title": "Loop detection in optimized lookup is exact", "statement": "The question whether looking up an input has infinitely many analyses is answered yes exactly when an accepted-so-far prefix of the input leads to a cycle of epsilon and flag transitions that can be repeated.", "quantifier": "every table set and input", "why_tests_cant": "All graphs, flags and inputs.", "anchors": ["libhfst/src/implementations/optimized-lookup/find_epsilon_loops.cc: find_loop, find_loop_epsilon_transitions", "libhfst/src/implementations/optimized-lookup/transducer.cc: is_lookup_infinitely_ambiguous, try_epsilon_transitions"]}
{"id": "C42", "title": "The speller accepts exactly the lexicon", "statement": "Checking a word answers yes exactly when the lexicon accepts it; a suggested correction is accepted by lexicon and error model with the reported weight, which is the smallest among its derivations, and suggestions come in order of weight.", "quantifier": "every lexicon and error model without epsilon cycles and every word", "why_tests_cant": "A breadth first search over a product of two machines.", "anchors": ["libhfst/src/implementations/optimized-lookup/ospell.cc: Speller::check, correct, lexicon_epsilons, lexicon_consume, mutator_epsilons, consume_input"]}
{"id": "C43", "title": "Path extraction reports every path", "statement": "Extracting the paths of an optimized-lookup transducer reports every accepting path that visits no state more often than the cycle limit allows, including the empty one.", "quantifier": "every transducer and cycle limit", "why_tests_cant": "All paths of all graphs.", "anchors": ["libhfst/src/implementations/HfstOlTransducer.cc: extract_paths"]}
{"id": "C44", "title": "HFST stream header round trips", "statement": "The header written before a transducer is read back with the same type and the same properties; a header that would not fit its length field is refused at writing; a truncated or inconsistent header is refused at reading.", "quantifier": "every set of NUL-free properties, every type and every byte sequence", "why_tests_cant": "All byte sequences.", "anchors": ["libhfst/src/HfstOutputStream.cc: operator<<, append_hfst_header_data, append", "libhfst/src/HfstInputStream.cc: read_hfst_header, get_header_size, get_header_data, process_header_data"]}
{"id": "C45", "title": "Transducers in one stream do not share properties", "statement": "A transducer read from a stream has the properties that were written with it and none of those of transducers read earlier from the same stream.", "quantifier": "every sequence of transducers in one stream", "why_tests_cant": "Depends on the history of reads.", "anchors": ["libhfst/src/HfstInputStream.cc: process_header_data, read_transducer"]}
{"id": "C46", "title": "Reported header length is the number of bytes consumed", "statement": "After recognising a header the number of bytes reported (and later skipped) equals the number of bytes the header occupies; when no header is recognised the stream is left where it was.", "quantifier": "every byte stream", "why_tests_cant": "All streams, both header generations.", "anchors": ["libhfst/src/HfstInputStream.cc: read_library_header, read_library_header_old, get_fst_type_old, read_hfst_header"]}
{"id": "C47", "title": "Lexicon entry alignment is minimal and lossless", "statement": "Aligning the two sides of a lexicon entry gives two sequences of equal length which without epsilons are the given sides, never aligns two different symbols, and uses the fewest epsilons possible.", "quantifier": "every two symbol sequences", "why_tests_cant": "Optimality is a statement over all alignments.", "anchors": ["libhfst/src/parsers/lexc-utils.cc: find_med_alingment"]}
{"id": "C48", "title": "Lexc percent escapes", "statement": "Removing percent escapes never writes outside its buffer and gives the literal characters; adding and then removing percents gives the same string unless the internal placeholder text occurs.", "quantifier": "every string", "why_tests_cant": "All strings; buffer sizes depend on the worst case.", "anchors": ["libhfst/src/parsers/lexc-utils.cc: strip_percents, addPercents, stripPercents"]}
{"id": "C49", "title": "Whitespace stripping stays inside its buffer", "statement": "Stripping white space returns the string without leading and trailing white space and reads only its own buffer.", "quantifier": "every string", "why_tests_cant": "Undefined behaviour for inputs made only of white space is not observable reliably.", "anchors": ["libhfst/src/parsers/lexc-utils.cc: strstrip", "libhfst/src/parsers/xfst-utils.cc: strstrip"]}
{"id": "C50", "title": "Regex percent escapes", "statement": "Adding percents to a symbol and stripping them gives the same symbol; stripping ends on every string and never writes outside its buffer.", "quantifier": "every string", "why_tests_cant": "All strings.", "anchors": ["libhfst/src/parsers/xre_utils.cc: add_percents, strip_percents"]}
{"id": "C51", "title": "UTF-8 character sizes split a string correctly", "statement": "On every well-formed UTF-8 text the character sizes used by the tokenizer and by optimized lookup cut the text exactly at code point boundaries.", "quantifier": "every sequence of code points", "why_tests_cant": "All texts.", "anchors": ["libhfst/src/implementations/optimized-lookup/ospell.cc: nByte_utf8", "libhfst/src/HfstTokenizer.cc: get_next_symbol_size"]}
{"id": "C52", "title": "Code point conversions follow the UTF-8 standard and invert each other", "statement": "Converting a code point number to a UTF-8 string gives the standard encoding of that character, numbers that are no characters are refused by the pattern-matching compiler, and reading a converted string back gives the same number and leaves the following text untouched.", "quantifier": "every code point number and every following text", "why_tests_cant": "1.1 million code points times all following texts.", "anchors": ["libhfst/src/parsers/SfstUtf8.cc: int2utf8, utf8toint", "libhfst/src/parsers/pmatch_utils.cc: codepoint_to_utf8"]}
{"id": "C53", "title": "Free insertion of a transducer", "statement": "After inserting a transducer freely into another, a sequence is accepted exactly when it is an old accepted sequence with sequences accepted by the inserted transducer put in at any places, weights added.", "quantifier": "every pair of transducers and every sequence", "why_tests_cant": "All interleavings of unbounded sequences.", "anchors": ["libhfst/src/implementations/HfstBasicTransducer.cc: insert_freely(graph)"]}
{"id": "C54", "title": "Inserting a transducer between two states", "statement": "After inserting a transducer between two states, the accepted sequences are exactly those of walks that may continue at the second state after a sequence accepted by the inserted transducer whenever they are at the first one.", "quantifier": "every pair of transducers, pair of states and walk", "why_tests_cant": "All walks, including those that use the insertion repeatedly.", "anchors": ["libhfst/src/implementations/HfstBasicTransducer.cc: insert_transducer"]}
{"id": "C55", "title": "Prolog text of a transducer reads back", "statement": "A transducer written as prolog text and read back has the same name, transitions, weights, final states and alphabet.", "quantifier": "every transducer, name and weight setting", "why_tests_cant": "All transducers and spellings of symbols; the reader also looks at memory it never wrote.", "anchors": ["libhfst/src/implementations/HfstBasicTransducer.cc: write_in_prolog_format, read_in_prolog_format, parse_prolog_arc_line, parse_prolog_final_line, parse_prolog_symbol_line"]}
{"id": "C56", "title": "Quoted text denotes its characters", "statement": "Text between double quotes in a regular expression or a pattern file denotes its characters, with each backslash escape replaced by the character it stands for; every text can be written so, nothing after an escape is lost, and reading never leaves the text nor writes outside the result.", "quantifier": "all texts between quotes", "why_tests_cant": "Escapes of different lengths can stand anywhere, also at the very end; tests cover single escapes in the middle.", "anchors": ["libhfst/src/parsers/xre_utils.cc: parse_quoted, get_quoted", "libhfst/src/parsers/pmatch_utils.cc: parse_quoted"]}
{"id": "C57", "title": "Text in braces and other delimiters stands for itself", "statement": "Non-empty text between braces in a regular expression stands for itself, whatever braces it contains; in a pattern file, protecting the delimiter and backslashes and removing the protection gives the text back.", "quantifier": "all texts and all delimiters", "why_tests_cant": "The result must be right for every combination of delimiters and backslashes inside the text.", "anchors": ["libhfst/src/parsers/xre_utils.cc: strip_curly", "libhfst/src/parsers/pmatch_utils.cc: unescape_delimited"]}
{"id": "C58", "title": "Characters of a range are read as their code points", "statement": "In a range of a pattern file each character is read as its code point, and reading goes on right behind it.", "quantifier": "all Unicode characters and all texts that follow", "why_tests_cant": "Over a million characters of four encoded lengths, each followed by any text.", "anchors": ["libhfst/src/parsers/pmatch_utils.cc: next_utf8_to_codepoint, parse_range"]}
{"id": "C59", "title": "Infinite ambiguity of an input is decided correctly", "statement": "Looking up an input is reported infinitely ambiguous exactly when, after reading some beginning of it and with flags respected if they are obeyed, the transducer can come back to a state without consuming anything; if it is not so reported, lookup without limits gives exactly the analyses of the input.", "quantifier": "every transducer and input", "why_tests_cant": "The question is about all runs on the input, of which there may be infinitely many.", "anchors": ["libhfst/src/implementations/HfstBasicTransducer.cc: is_lookup_infinitely_ambiguous, is_possible_flag, lookup"]}
{"id": "C60", "title": "Negative epsilon cycles are found", "statement": "A transducer is reported to have negative epsilon cycles exactly when transitions with epsilon on both sides form a cycle whose weights add up to less than zero, and the question is always answered.", "quantifier": "every transducer", "why_tests_cant": "Cycles may have any length and pass through each other; all of them have to be considered.", "anchors": ["libhfst/src/implementations/HfstBasicTransducer.cc: has_negative_epsilon_cycles"]}
{"id": "C61", "title": "Lookup in a converted transducer finds what the original transducer has", "statement": "After a transducer has been converted to optimized lookup, looking up a string returns exactly the outputs, with their weights, of those paths of the original transducer that read the symbols of the string and whose flag diacritics are consistent; symbols that the transducer does not have are read by identity and unknown transitions; no lookup reads outside the tables, however many strings were looked up before.", "quantifier": "all transducers, orders of the symbol sets, packings of the index table, input strings and sequences of lookups", "why_tests_cant": "The packing of states into the index table, the numbering of symbols and the symbols added by earlier lookups interact in ways that only particular alphabets show.", "anchors": ["libhfst/src/implementations/ConvertOlTransducer.cc: hfst_basic_transducer_to_hfst_ol", "libhfst/src/implementations/optimized-lookup/transducer.cc: Transducer::lookup_fd, Transducer::get_analyses", "libhfst/src/implementations/optimized-lookup/convert.h"]}
{"id": "C62", "title": "Conversion from optimized lookup back to a graph keeps the language", "statement": "Converting a transducer to optimized lookup and back gives a transducer that accepts the same pairs of symbol sequences with the same weights and has the same alphabet.", "quantifier": "every transducer", "why_tests_cant": "All transducers; the tables are packed by a search.", "anchors": ["libhfst/src/implementations/ConvertOlTransducer.cc: hfst_ol_to_hfst_basic_transducer, hfst_ol_to_hfst_basic_add_state", "libhfst/src/implementations/optimized-lookup/transducer.cc: get_transitions_from_state"]}
{"id": "C63", "title": "Pattern matching keeps the text", "statement": "The locations that a pattern matcher reports for a text cover it one after the other: the input shown by the locations, concatenated, is the text, all alternatives for a place show the same part of it, and each location tells how many symbols come before it. If the patterns only mark what they read, then the text that matching returns is the given text with start tags and end tags put in, each pair around the text of its pattern. Both hold for every text, whatever texts were matched before.", "quantifier": "all pattern transducers (including calls of other transducers, captures and flags), all texts, and all sequences of texts", "why_tests_cant": "Matching backtracks on a shared tape over any number of nested calls; whether a symbol is lost depends on what was tried before.", "anchors": ["libhfst/src/implementations/optimized-lookup/pmatch.cc: PmatchContainer::process, match, locate, initialize_input, PmatchTransducer::get_analyses, PmatchAlphabet::stringify, locatefy"]}
{"id": "C64", "title": "Pattern matching takes the longest matches from the left", "statement": "Pattern matching goes through the text from the left. At each place it takes the longest part that the patterns match from there on (following calls of other patterns), and goes on after it; a symbol where no match begins is kept and the next place is tried. Rewriting writes a longest match with the least weight; locating reports all longest matches and no others, with their weights, outputs and tags, lightest first. Both always end.", "quantifier": "all pattern transducers with any number of transducers calling each other, and all texts", "why_tests_cant": "The search backtracks through nested calls with shared tapes and stacks; a match that is lost or kept wrongly depends on the order in which others were tried.", "anchors": ["libhfst/src/implementations/optimized-lookup/pmatch.cc: PmatchContainer::process, PmatchTransducer::match, get_analyses, take_epsilons, take_transitions, rtn_call, note_analysis, grab_location, handle_final_state, PmatchAlphabet::locatefy"]}
{"id": "C65", "title": "The SFST operations compute what they say", "statement": "In the SFST back-end, copying, inverting, projecting, replacing a symbol, union, concatenation, repetition (any number, at least one, exactly n, at most n, optional), inserting a symbol freely and reversal always end, leave their operands as they are, and give a transducer that accepts exactly what the operation is defined to give; results are marked as deterministic or minimal only if they are.", "quantifier": "all transducers of any size and shape, including cycles and epsilon transitions", "why_tests_cant": "The nodes are shared and cyclic and are changed while they are walked through; marks left on a result change what later operations do with it.", "anchors": ["back-ends/sfst/operators.cc: Transducer::copy, operator|, operator+, kleene_star, freely_insert, reverse, level, replace_char", "libhfst/src/implementations/SfstTransducer.cc: repeat_plus, repeat_n, repeat_le_n, optionalize, insert_freely"]}
{"id": "C66", "title": "SFST determinisation and intersection keep the language", "statement": "Determinisation in the SFST back-end always ends with a transducer without epsilon transitions and without two transitions with the same label from one node, which accepts the same label sequences; the intersection of two transducers accepts exactly the sequences that both accept.", "quantifier": "all transducers, deterministic or not, with epsilon cycles", "why_tests_cant": "The number of node sets is exponential; whether two sets are taken for the same depends on all their nodes.", "anchors": ["back-ends/sfst/determinise.cc: Transducer::determinise, determinise_node, compute_transitions, NodeSet::add", "back-ends/sfst/operators.cc: operator&, conjoin_nodes"]}
{"id": "C67", "title": "SFST composition computes the composed relation", "statement": "The composition of two transducers in the SFST back-end always ends and relates x to z exactly if for some y the first relates x to y and the second y to z.", "quantifier": "all pairs of transducers, including those with epsilon on either side and epsilon cycles", "why_tests_cant": "Epsilons on the two middle levels can be passed in any order; the way arcs are paired depends on the number of symbols at each pair of nodes.", "anchors": ["back-ends/sfst/operators.cc: operator||, compose_nodes, add_transition"]}
{"id": "C68", "title": "SFST minimisation keeps what is accepted and gives the smallest transducer", "statement": "Minimisation in the SFST back-end, by either of its two methods, always ends; the result accepts exactly the same sequences of symbol pairs, it is deterministic, no two of its nodes accept the same, no arc leads to a dead end, and no deterministic transducer that accepts the same has fewer nodes.", "quantifier": "all transducers whose marks 'deterministic' and 'minimised' are right", "why_tests_cant": "The groups of nodes are split in an order that depends on their sizes and on the order of the arcs; a test sees one order for each transducer, and cannot compare with all smaller transducers.", "anchors": ["back-ends/sfst/hopcroft.cc: Minimiser, hopcroft_minimise", "back-ends/sfst/fst.cc: rev_det_minimise, minimise_alphabet"]}
{"id": "C69", "title": "SFST equivalence, complement and difference are exact", "statement": "In the SFST back-end two transducers compare as equivalent exactly if they accept the same sequences of symbol pairs; the complement accepts, of the sequences over its alphabet, exactly those not accepted; the difference accepts exactly what the first transducer accepts and the second does not, whatever their alphabets.", "quantifier": "all transducers and pairs of transducers whose marks 'deterministic' and 'minimised' are right", "why_tests_cant": "Equivalence of two infinite sets of sequences; a test compares a few strings, and the comparison walks both minimal transducers in an order given by their arcs.", "anchors": ["back-ends/sfst/operators.cc: operator==, compare_nodes, operator!, negate_nodes, operator/", "libhfst/src/implementations/SfstTransducer.cc: are_equivalent, subtract"]}
{"id": "C70", "title": "Paths added one by one to an SFST transducer are exactly what it accepts", "statement": "Adding a path to a transducer in the SFST back-end makes it accept this path and what it accepted before, and nothing else; so a lexicon built from its paths accepts exactly these paths, and later operations see it as it is.", "quantifier": "all transducers and all paths, including paths with epsilons and paths that begin with others", "why_tests_cant": "The path is put into the shared nodes of the transducer; whether other sequences come in depends on how the nodes are shared.", "anchors": ["libhfst/src/implementations/SfstTransducer.cc: disjunct(Transducer*, StringPairVector)"]}
{"id": "C71", "title": "A compiled lexicon accepts exactly the chains of its entries", "statement": "A lexc file compiled to a transducer accepts exactly the sequences of symbol pairs that one gets by starting in Root (or in the first lexicon if there is no Root), choosing an entry, going on in the lexicon it names, and so on until an entry that continues with #; the weight is the smallest sum of the weights of the entries and of what their regular expressions add. Texts are cut into the longest symbols known at that place, and the shorter side of a pair is filled up at its end. It does not matter what was compiled before.", "quantifier": "all lexicon files with any number of lexicons, entries, symbols and regular expressions, recursive ones included, and all earlier uses of the compiler", "why_tests_cant": "Entries are joined by a filter over markers that are cut out of the text again, so one unlucky name or symbol changes which of infinitely many chains survive; tests compile a few small files.", "anchors": ["libhfst/src/parsers/LexcCompiler.cc: addStringEntry, addStringPairEntry, addXreEntry, setCurrentLexiconName, compileLexical, reset", "libhfst/src/parsers/lexc-parser.yy: handle_multichar, handle_string_pair_entry", "libhfst/src/implementations/HfstBasicTransducer.cc: substitute(SubstMap, bool)"]}
{"id": "C72", "title": "Composition relates exactly what the two transducers relate one after the other", "statement": "The composition of two transducers maps a string to another exactly if the first maps it to some string that the second maps on, with the smallest sum of the weights. This holds although the unknown and identity symbols in the two transducers stand for different sets of symbols, and unknown and identity on the shared side have to be matched with each other.", "quantifier": "all pairs of transducers, all alphabets, all strings and all weights", "why_tests_cant": "Unknown and identity stand for infinitely many symbols and are expanded against the other alphabet and renamed before and after the composition; whether this is right for every symbol cannot be seen from a few strings.", "anchors": ["libhfst/src/HfstTransducer.cc: compose, harmonize_, substitute_single_identity_with_the_other_symbol", "libhfst/src/implementations/TropicalWeightTransducer.cc: compose"]}
{"id": "C73", "title": "The operations on transducers compute what they are documented to compute for symbols outside the alphabet, too", "statement": "Union, concatenation, intersection, difference, closure, inversion, both projections, complement, the repetitions (n times, up to n times, at least n times, n to k times) and the comparison of transducers are right about all strings, symbols that neither alphabet contains included. The complement of an automaton is an automaton for exactly the other strings, and an error for anything but automata.", "quantifier": "all transducers, all strings of any symbols, all numbers of repetitions", "why_tests_cant": "Each operation harmonizes the alphabets first; an error there shows only for symbols that one of the transducers does not know, in combination with unknown or identity transitions.", "anchors": ["libhfst/src/HfstApply.cc: apply", "libhfst/src/HfstTransducer.cc: harmonize_, insert_missing_symbols_to_alphabet_from, compare, negate, concatenate, disjunct, intersect, subtract", "libhfst/src/implementations/TropicalWeightTransducer.cc: repeat_n, repeat_le_n, repeat_star, optionalize, extract_input_language, extract_output_language"]}
{"id": "C74", "title": "Priority union and lenient composition prefer the first transducer for every input string", "statement": "The priority union of two transducers maps a string as the first transducer does if this maps it to anything, and as the second one does otherwise. The lenient composition of two transducers maps a string as their composition does if this maps it to anything, and as the first transducer does otherwise.", "quantifier": "all pairs of transducers and all strings, symbols outside of both alphabets included", "why_tests_cant": "The complement of the input side of the first transducer is built over its own alphabet and then composed with the second one; strings with symbols that only one of them knows are where this can go wrong, and there are infinitely many.", "anchors": ["libhfst/src/HfstTransducer.cc: priority_union, lenient_composition, negate", "libhfst/src/HfstTransducer.h: priority_union, lenient_composition"]}
{"id": "C75", "title": "The cross product of two automata pairs every string with every string", "statement": "The cross product of two automata maps each string of the first to each string of the second, with epsilons at the end of the shorter one and with the sum of the weights, and maps nothing else; symbols that the automata accept through unknown or identity are included, also when the two symbols are equal. An operand that is not an automaton is refused, and no automaton is.", "quantifier": "all pairs of transducers, all pairs of strings and all weights", "why_tests_cant": "Strings of different lengths are padded with marks, and unknown symbols pass through two compositions; a string of the wrong length or an unknown symbol paired with itself is lost only in particular combinations, of which there are infinitely many.", "anchors": ["libhfst/src/HfstTransducer.cc: cross_product, compose, concatenate", "libhfst/src/HfstTransducer.h: cross_product"]}
{"id": "C76", "title": "Two-level rules accept exactly the pair strings that obey them", "statement": "Over a given alphabet of symbol pairs, two_level_if accepts a string of pairs exactly if every symbol that has a mapping is mapped accordingly wherever the left context ends before it and the right context begins after it; two_level_only_if accepts a string exactly if the mappings occur only at such places; two_level_if_and_only_if accepts a string exactly if both hold. Contexts may contain unknown and identity symbols. Every accepted string has weight zero, whatever the weights of the contexts. An empty string as a symbol is an error.", "quantifier": "all context transducers, all sets of mappings, all alphabets of symbol pairs and all strings of pairs", "why_tests_cant": "A rule is built from a dozen concatenations and differences, and contexts can overlap each other and the center; whether a long string with overlapping matches is treated right cannot be settled by trying some strings.", "anchors": ["libhfst/src/HfstRules.cc: two_level_if, two_level_only_if, two_level_if_and_only_if", "libhfst/src/HfstTransducer.h: two_level_if, two_level_only_if, two_level_if_and_only_if", "libhfst/src/implementations/TropicalWeightTransducer.cc: define_transducer"]}
{"id": "C77", "title": "Restriction and coercion accept exactly the pair strings that obey them", "statement": "Over a given alphabet of symbol pairs, restriction accepts a string of pairs exactly if every part of it that belongs to the mapping stands between the two sides of one of the contexts; coercion accepts it exactly if every part that stands between the two sides of one of the contexts belongs to the mapping; restriction_and_coercion accepts it exactly if both hold. The surface (deep) coercion only asks this of parts that have the input (output) string of some pair string of the mapping. The mapping and the contexts may contain unknown and identity symbols. Accepted strings have weight zero. Without contexts the functions throw. The arguments are not changed.", "quantifier": "all lists of contexts, all mappings, all alphabets of symbol pairs, all nine functions and all strings of pairs", "why_tests_cant": "The rule is built with a marker symbol that is put in, used to align contexts and mapping, and taken away again; whether unknown symbols ever match the marker and whether overlapping occurrences are all checked cannot be seen from some examples.", "anchors": ["libhfst/src/HfstRules.cc: restriction, coercion, restriction_and_coercion, surface_restriction, surface_coercion, deep_restriction, deep_coercion", "libhfst/src/HfstTransducer.h: TwolType"]}
{"id": "C78", "title": "Replacement without contexts rewrites every match and nothing else", "statement": "replace_up (replace_down) without a context, given a mapping and an alphabet of symbols, relates a string to another exactly if the second comes from the first by replacing some parts according to the mapping, where the parts that are kept consist of symbols of the alphabet and have no part that is an input (output) of the mapping. The weight is the sum of the weights of the replacements. An optional rule also relates every string over the alphabet to itself. left_replace_up is the inverse. No string over the alphabet is blocked: it has at least one image. An empty string as a symbol is an error.", "quantifier": "all mappings, all alphabets, obligatory and optional rules, all pairs of strings", "why_tests_cant": "Matches can overlap, be contained in each other and arise from neighbouring replacements; there are infinitely many mappings and strings, and tests of single rules on single strings do not show that no match is left and nothing else is changed.", "anchors": ["libhfst/src/HfstRules.cc: replace, replace_up, replace_down, left_replace_up", "libhfst/src/HfstTransducer.h: replace_up, replace_down, left_replace_up"]}
{"id": "C79", "title": "Shuffle accepts exactly the interleavings", "statement": "The shuffle of two automata accepts a string exactly if the string can be split into two scattered parts, in order, of which the first automaton accepts one and the second the other; the weight is the least sum of the two weights. This includes identity symbols: they stand for every symbol outside the alphabets. If an argument relates two different strings, shuffle throws and does not compute anything.", "quantifier": "all pairs of automata with any alphabets and weights, all strings of symbols, and all transducers that are not automata", "why_tests_cant": "The symbols are tagged with their origin, the tagged symbols of the other side are inserted freely, and the tags are taken away; whether the right alphabets are left for the identity symbol cannot be seen from examples without unknown symbols.", "anchors": ["libhfst/src/HfstTransducer.cc: code_symbols_for_shuffle, HfstTransducer::shuffle", "libhfst/src/HfstTransducer.h: shuffle"]}
{"id": "C80", "title": "Elimination of flags keeps exactly the paths whose flags let through", "statement": "After the elimination of all flag diacritics the transducer has no flag in its alphabet and accepts exactly those sequences that are obtained from an accepted sequence whose flags all let through, by leaving out the flags; the weights are the same. The same holds for the elimination of one feature, which throws exactly if the transducer has no flag of this feature.", "quantifier": "all transducers with any flags, weights and unknown or identity symbols, all features, and all sequences of symbol pairs", "why_tests_cant": "The filter is built from a table of 25 cases for two flags at a time and composed on both sides; whether the filters of all flags together describe the run-time meaning of the flags on paths of any length cannot be enumerated.", "anchors": ["libhfst/src/HfstTransducer.cc: new_filter, substitute_escaped_flags, flag_build, is_valid_flag_combination, get_flag_filter, flag_purge, HfstTransducer::eliminate_flags, HfstTransducer::eliminate_flag", "libhfst/src/implementations/HfstBasicTransducer.cc: flag_purge", "libhfst/src/parsers/xre_utils.cc: contains"]}
{"id": "C81", "title": "Conversion to and from OpenFst with tropical weights keeps the transducer", "statement": "Converting a transducer to OpenFst with tropical weights and back, in the same or in another program, gives the same states, transitions, weights and alphabet; the converted transducer accepts the same pairs with the same weights; a foreign OpenFst transducer keeps what it accepts, or is refused if a label has no name.", "quantifier": "all transducers, all numberings of symbols at both ends, all OpenFst transducers with any start state, labels and symbol tables", "why_tests_cant": "The numbers of symbols depend on everything the program did before, and labels and start states of foreign transducers are arbitrary.", "anchors": ["libhfst/src/implementations/ConvertTropicalWeightTransducer.cc: tropical_ofst_to_hfst_basic_transducer, hfst_basic_transducer_to_tropical_ofst, handle_symbol_tables, copy_alphabet", "libhfst/src/implementations/TropicalWeightTransducer.cc: get_symbol_vector, get_biggest_symbol_number", "libhfst/src/implementations/HfstTropicalTransducerTransitionData.cc: get_harmonization_vector"]}
{"id": "C82", "title": "Conversion to and from OpenFst with log weights keeps the transducer", "statement": "Converting a transducer to OpenFst with log weights, and converting an OpenFst transducer with log weights to HFST, keeps what it accepts with which weights; a transducer with a label that has no name, or without symbol tables, is refused.", "quantifier": "all transducers and all OpenFst transducers with any start state, labels and symbol tables", "why_tests_cant": "States are numbered anew in the order in which they are met, so the result depends on the whole transducer.", "anchors": ["libhfst/src/implementations/ConvertLogWeightTransducer.cc: log_ofst_to_hfst_basic_transducer, hfst_basic_transducer_to_log_ofst, hfst_state_to_state_id"]}
{"id": "C83", "title": "hfst-proc can go back in its input as far as its buffer reaches", "statement": "Reading tokens, going back by some of them and reading them again, looking at one of the last tokens and measuring how many tokens lie between two positions give what they would give on a list of all tokens, as long as no more than the size of the buffer is asked for, however long the input is.", "quantifier": "all inputs, all sizes of the buffer, all sequences of calls", "why_tests_cant": "The buffer goes round: the outcome depends on the position in it modulo its size, and each test sees only a few positions.", "anchors": ["tools/src/hfst-proc/buffer.h: Buffer", "tools/src/hfst-proc/tokenizer.cc: TokenIOStream::get_token", "tools/src/hfst-proc/tokenizer.h: TokenIOStream::move_back, diff_prev"]}
{"id": "C84", "title": "hfst-proc reads the longest symbols and prints the text as it was read", "statement": "The tokens of a text are the longest symbols of the transducer, single characters where there is none, superblanks and reserved characters; printing the tokens gives the text back byte for byte.", "quantifier": "all texts, all tables of symbols, raw and escaped input", "why_tests_cant": "Which symbols are longest depends on the whole table, and any byte sequence can follow any other.", "anchors": ["tools/src/hfst-proc/alphabet.cc: LetterTrie::add_string, extract_symbol, Symbolizer::add_symbol, extract_symbol", "tools/src/hfst-proc/tokenizer.cc: TokenIOStream::read_token, make_token, read_delimited, read_utf8_char, put_token, token_to_string, escape"]}
{"id": "C85", "title": "hfst-proc divides the text into longest words and loses nothing of it", "statement": "The analysis of a text comes to an end; the text is divided from left to right into the longest words of the transducer, unknown words and single characters between them, and the pieces put together are the text.", "quantifier": "all texts, all transducers", "why_tests_cant": "Where a word ends depends on how far the transducer can follow the text behind it, and on where the circular buffer goes round.", "anchors": ["tools/src/hfst-proc/applicators.cc: AnalysisApplicator::apply"]}
{"id": "C86", "title": "A transducer of the SFST back-end read from a file is the one that was stored", "statement": "Storing a transducer and reading the file gives the same transducer up to the numbers of its states, with the same symbols, codes and label pairs, marked as minimal only if it was; the next transducer in the file is found; and a transducer that does not fit into the format is refused when it is stored.", "quantifier": "all transducers, all alphabets, all files in which the transducer is followed by anything", "why_tests_cant": "The order of the states in the file is that of a depth-first walk, so every shape of graph gives other bytes, and the limits of the number fields are only met by very large transducers.", "anchors": ["back-ends/sfst/fst.cc: Transducer::store, store_node, store_node_info, Transducer::nodeindexing, Transducer::read_transducer_binary, read_node", "back-ends/sfst/alphabet.cc: Alphabet::store, Alphabet::read, Alphabet::add_symbol", "back-ends/sfst/basic.cc: read_string, read_num", "libhfst/src/implementations/SfstTransducer.cc: SfstInputStream::read_transducer, SfstOutputStream::write_transducer"]}
{"id": "C87", "title": "Conversion between the SFST back-end and the basic format keeps the transducer, however often it is made and whatever was asked before", "statement": "Converting a transducer of the SFST back-end to the basic format gives the same states in reach, transitions, final states and alphabet, each time it is made, whatever was converted, counted, copied or asked before; the question whether a transducer is cyclic is answered right; and a basic transducer converted to the back-end and back is the same except for weights and states out of reach.", "quantifier": "all transducers, all alphabets and numberings of symbols, all sequences of calls on a transducer with conversions of other transducers in between", "why_tests_cant": "The result depends on marks that earlier walks left on the nodes, and on a counter shared by all transducers, so a test of one conversion of a new transducer says nothing about the next one.", "anchors": ["libhfst/src/implementations/ConvertSfstTransducer.cc: ConversionFunctions::sfst_to_hfst_basic_transducer, ConversionFunctions::hfst_basic_transducer_to_sfst, VMARK", "back-ends/sfst/fst.h: Node::was_visited, Node::check_visited, Transducer::incr_vmark", "back-ends/sfst/fst.cc: Transducer::nodeindexing, Transducer::index_nodes", "back-ends/sfst/operators.cc: Transducer::is_cyclic, Transducer::is_cyclic_node", "back-ends/sfst/alphabet.cc: Alphabet::add_symbol"]}
{"id": "C88", "title": "Extracting paths gives the accepted paths, each once, never more than asked for, and comes to an end", "statement": "Extracting paths into a set adds only paths the transducer accepts, with their weights, in which no state is visited more often than allowed and whose flags let through if they are obeyed; if there is no maximum, or the maximum is not reached, it adds all of them; it never adds more than the maximum; and it ends, or throws an exception if there would be infinitely many.", "quantifier": "all transducers with tropical weights, log weights and of the SFST back-end, all maxima, numbers of cycles, ways of treating flags, and sets of results already there", "why_tests_cant": "The search visits arcs in an order that depends on how often their targets were visited before, and whether it stops in time depends on all paths tried before; no number of examples covers all graphs.", "anchors": ["libhfst/src/HfstTransducer.cc: HfstTransducer::extract_paths, HfstTransducer::extract_paths_fd, ExtractStringsCb_", "libhfst/src/implementations/TropicalWeightTransducer.cc: extract_paths, TropicalWeightTransducer::extract_paths, TropicalWeightTransducer::get_flag_diacritics", "libhfst/src/implementations/LogWeightTransducer.cc: extract_paths, LogWeightTransducer::extract_paths", "libhfst/src/implementations/SfstTransducer.cc: extract_paths, SfstTransducer::extract_paths", "back-ends/sfst/alphabet.cc: Alphabet::write_char"]}
{"id": "C89", "title": "A two-level rule with variables stands for one rule for each allowed choice of values", "statement": "When a two-level grammar is compiled, a rule with variables is compiled exactly once for each choice of values that its blocks of variables allow, with these values in the place of the variables, and no other symbol changed: in a block with 'freely' all combinations, with 'matched' values at the same position, with 'mixed' values at different positions, and several blocks combine freely. Variables of one rule have no effect on another. A block that cannot be given values, or whose matched variables have lists of different lengths, is reported as an error.", "quantifier": "all grammars, all rules with any number of blocks of variables, all lists of values and sets in them", "why_tests_cant": "The combinations are enumerated by nested iterators that compare themselves with their ends, skip combinations and start again; the number of shapes of blocks is unbounded, and the cases that go wrong are those with few values.", "anchors": ["libhfst/src/parsers/htwolcpre1-parser.yy: RULE, set_variable_values", "libhfst/src/parsers/variable_src/RuleVariables.cc: RuleVariables", "libhfst/src/parsers/variable_src/RuleVariablesConstIterator.cc: RuleVariablesConstIterator", "libhfst/src/parsers/variable_src/ConstContainerIterator.h: ConstContainerIterator", "libhfst/src/parsers/variable_src/MatchedConstContainerIterator.h: MatchedConstContainerIterator", "libhfst/src/parsers/variable_src/MixedConstContainerIterator.h: MixedConstContainerIterator", "libhfst/src/parsers/variable_src/VariableValueIterator.h: VariableValueIterator", "libhfst/src/parsers/variable_src/VariableBlock.h: VariableBlock", "libhfst/src/parsers/variable_src/RuleSymbolVector.cc: RuleSymbolVector::replace_variables"]}
{"id": "C90", "title": "A compiled two-level grammar accepts exactly the pair strings that obey its rules, and the narrower rule wins a conflict", "statement": "The transducers that hfst-twolc stores for a grammar accept together exactly the pair strings that obey all its rules: a pair that '=>' or '<=>' rules restrict stands only where one of these rules is about the place; where a '<=' or '<=>' rule is about a place the input symbol of its center has the output that the rule demands; the center of a '/<=' rule does not stand where the rule is about the place; exceptions are taken away from the contexts. If left-arrow conflicts are resolved, of two rules that demand different outputs in places of which one set contains the other the narrower rule governs the common places, whatever the order of the rules, and conflicts are reported only between rules that demand different outputs.", "quantifier": "all grammars with any number of rules, centers, contexts and exceptions, in any order, all options for reporting and resolving conflicts, and all pair strings", "why_tests_cant": "Rules are changed by the rules that are added after them, so what a rule means depends on the whole history of conflicts; the set of pair strings is infinite.", "anchors": ["libhfst/src/parsers/rule_src/TwolCGrammar.cc: TwolCGrammar::add_rule, TwolCGrammar::compile_and_store", "libhfst/src/parsers/rule_src/Rule.cc: Rule, get_center, store", "libhfst/src/parsers/rule_src/LeftArrowRuleContainer.cc: add_rule_and_display_and_resolve_conflicts", "libhfst/src/parsers/rule_src/RightArrowRuleContainer.cc: add_rule_and_display_and_resolve_conflicts", "libhfst/src/parsers/rule_src/ConflictResolvingLeftArrowRule.cc: conflicts_this, resolvable_conflict, resolve_conflict, get_wb_fst, wbize", "libhfst/src/parsers/rule_src/ConflictResolvingRightArrowRule.cc: resolve_conflict", "libhfst/src/parsers/rule_src/RightArrowRule.cc: compile", "libhfst/src/parsers/rule_src/LeftArrowRule.cc: compile", "libhfst/src/parsers/rule_src/LeftRestrictionArrowRule.cc: compile", "libhfst/src/parsers/rule_src/OtherSymbolTransducer.cc: get_context, is_subset, is_empty_intersection", "libhfst/src/parsers/htwolcpre3-parser.yy: RULE, RULE_CONTEXTS"]}
{"id": "C91", "title": "The tools choose and pair the transducers of archives as documented", "statement": "hfst-head -n K writes the first K transducers of an archive and -n -K all but the last K; hfst-tail -n K writes the last K and -n +K those from the Kth on; without the option hfst-head writes the first and hfst-tail all but the first; a text that is not a number is refused. hfst-split writes the Nth transducer to the file PRE+N+EXT and touches no other file. The tools with two inputs apply their operation pairwise; if the second input has one transducer, it is used for each transducer of the first input and stays constant; if the numbers of transducers are different otherwise, the tool reports an error. hfst-compare has exit code 0 exactly if all pairs are equal. All of them end.", "quantifier": "all archives of any size, all texts given as numbers, all prefixes and extensions, all operations", "why_tests_cant": "Archives may have any number of transducers, the options any value, and the tools keep a transducer from round to round, so that a result can depend on all rounds before.", "anchors": ["tools/src/hfst-head.cc: process_stream, parse_options", "tools/src/hfst-tail.cc: process_stream, parse_options", "tools/src/hfst-split.cc: process_stream", "tools/src/hfst-disjunct.cc: disjunct_streams", "tools/src/hfst-concatenate.cc: concatenate_streams", "tools/src/hfst-conjunct.cc: conjunct_streams", "tools/src/hfst-subtract.cc: subtract_streams", "tools/src/hfst-shuffle.cc: shuffle_streams", "tools/src/hfst-priority-disjunct.cc: priority_disjunct_streams", "tools/src/hfst-compose.cc: compose_streams", "tools/src/hfst-compare.cc: compare_streams", "tools/src/hfst-commandline.cc: hfst_strtol", "tools/src/hfst-program-options.cc: print_common_binary_program_parameter_instructions", "libhfst/src/HfstTransducer.cc: rename_flag_diacritics, harmonize_flag_diacritics"]}
{"id": "C92", "title": "Harmonizing the flags of two transducers keeps their flags apart and changes nothing else", "statement": "With the option -F the tools with two inputs first harmonize the flag diacritics: the features of the two transducers get different names. Renaming the features changes nothing of what a transducer accepts on paths whose flags let through. The result of hfst-concatenate -F accepts exactly the concatenations of what the two transducers accept, that of hfst-conjunct -F exactly what both accept, and that of hfst-subtract -F what the first accepts and the second does not, where accepting means on a path whose flags let through, without the flags, and weights are added.", "quantifier": "all pairs of transducers with any flags (also the same flags in both), all strings and weights", "why_tests_cant": "Flags of two transducers interact on paths of any length, and the renamed flags are inserted as loops at every state, so that infinitely many paths of the result stand for one string.", "anchors": ["libhfst/src/HfstTransducer.cc: harmonize_flag_diacritics, rename_flag_diacritics, insert_freely_missing_flags_from, check_for_missing_flags_in, add_suffix_to_feature_name, has_flags", "tools/src/hfst-concatenate.cc: concatenate_streams", "tools/src/hfst-conjunct.cc: conjunct_streams", "tools/src/hfst-subtract.cc: subtract_streams"]}
{"id": "C93", "title": "Reweighting changes exactly the weights that match", "statement": "hfst-reweight keeps every accepting path with its symbols. The weight w of a transition becomes BVAL * FNAME(w) + AVAL if it lies between the bounds and the transition has the symbols asked for, and stays the same otherwise; so does a final weight, unless only the one or the other kind is to be changed. By default the bounds are the least and the greatest weight. With a file of rules every rule is applied in turn, with the neutral value where AVAL or BVAL is not given; empty lines and comments are ignored, and a file with any other line is refused. Every transducer of an archive is treated in the same way.", "quantifier": "all transducers, all options, all rule files, all archives, all functions on weights", "why_tests_cant": "The states are numbered anew in the order in which they are met, so that cycles and forward references of every shape matter, and the rules act one after the other on files of any length.", "anchors": ["tools/src/hfst-reweight.cc: reweight, do_reweight, process_stream, print_usage"]}
{"id": "C94", "title": "The commands of hfst-xfst do to the stack and the definitions what their help texts say", "statement": "turn stack turns the stack upside down and rotate stack rotates it. What save stack writes, load stack puts back on top of any stack in the same order, and what save defined writes, load defined restores; so does write definition for one name. At every time the command push defined NAME and the regular expression NAME mean the same network: the one that the name was defined as last and that has not been undefined. An operation replaces the networks it is applied to by its result, or leaves the stack as it was if it fails. test overlap and test sublanguage answer about the top two networks.", "quantifier": "all sequences of commands, all stacks and definitions, all networks", "why_tests_cant": "A session is an arbitrarily long history of commands, and the definitions are kept in two places that each command has to change together.", "anchors": ["libhfst/src/parsers/XfstCompiler.cc: define, undefine, push, pop, clear, turn, rotate, load_stack, load_definitions, write_stack, write_definition, write_definitions, read_regex, apply_unary_operation, apply_binary_operation, apply_binary_operation_iteratively, test_operation", "libhfst/src/parsers/xfst_help_message.cc"]}
{"id": "C95", "title": "hfst-pair-test succeeds exactly when the grammar treats every test as expected", "statement": "hfst-pair-test ends with exit code 0 if and only if every line that is not empty and not a comment is a pair string that every rule of the grammar accepts, or with -N one that some rule rejects; otherwise it ends with 1. In a positive test exactly the rules that reject a pair string are named. With -X the marked comments of a source file are the tests: positive and negative lines come in pairs, and every pair of lines has to be accepted or rejected accordingly.", "quantifier": "all grammars, all files of tests, all pair strings, positive, negative and Xerox mode", "why_tests_cant": "One exit code stands for all combinations of rules and lines, and whether a pair is read as the identity depends on which symbols each rule knows.", "anchors": ["tools/src/hfst-pair-test.cc: get_target, test, get_symbols, is_empty_or_comment, process_stream, print_usage"]}
{"id": "C96", "title": "hfst-kill-paths removes exactly the paths with the symbols asked for", "statement": "The result of hfst-kill-paths has exactly the accepting paths of the transducer that have none of the symbols asked for with -S or in the file of -T as input or output, with their weights. Empty lines and comments of the file are ignored. Every transducer of an archive is treated in the same way, and no string with a symbol asked for is accepted afterwards.", "quantifier": "all transducers, all symbols, all files of symbols, all archives", "why_tests_cant": "The states are numbered anew in the order in which they are met while transitions are left out, so that cycles and forward references of every shape matter.", "anchors": ["tools/src/hfst-kill-paths.cc: do_killing, process_stream, print_usage"]}
{"id": "C97", "title": "hfst-expand-equivalences lets symbols be written as their equivalents", "statement": "Every transducer that hfst-expand-equivalences writes accepts exactly the pairs of strings of the old one with any occurrences of symbols written as their equivalents, on the level asked for: the first, the second or both. The equivalents are those of -f and -t, of the lines of the file of -T, or of the acx file of -a. A file of -T that is not in the format makes the tool fail. Pairs that were accepted stay accepted, and @0@ stands for the empty string as the error messages say.", "quantifier": "all archives of transducers, all strings, all files of equivalences, all options", "why_tests_cant": "A string can be rewritten in any subset of its places, and the lines of the file can have any number of fields, so that the strings and files to be tried are unlimited.", "anchors": ["tools/src/hfst-expand-equivalences.cc: add_extension, process_stream, check_options, parse_options, print_usage"]}
{"id": "C98", "title": "hfst-substitute reads labels and files of labels as documented", "statement": "hfst-substitute reads a label as a pair exactly if it has a colon that is neither escaped nor first nor last, and @0@ as epsilon; it always ends. With -f and -t, and with a file of -F, every transducer of the archive gets the substitutions asked for: with -R in the order of the lines, without -R all symbols at once and then all pairs at once, the last line for a symbol or pair counting. A wrong line makes the tool fail before anything is written.", "quantifier": "all labels, all files of labels, all archives", "why_tests_cant": "Labels can have any number of colons and backslashes in any order, and files any number of lines for the same symbol.", "anchors": ["tools/src/hfst-substitute.cc: label_to_stringpair, parse_options, do_substitute, process_stream, print_usage"]}
{"id": "C99", "title": "hfst-repeat repeats as many times as its options ask for", "statement": "hfst-repeat -f FNUM -t TNUM writes each transducer of the archive, in its order, repeated at least FNUM and at most TNUM times. If FNUM is not given it is 0, if TNUM is not given it is infinite; both may be infinite. If FNUM is above TNUM, or one of them is not a number of this kind, the tool fails and nothing is written.", "quantifier": "all values of the two options, all archives, all transducers", "why_tests_cant": "The options can be any numbers, and infinities; the languages are infinite.", "anchors": ["tools/src/hfst-repeat.cc: parse_options, process_stream, print_usage", "tools/src/hfst-commandline.cc: hfst_strtonumber"]}
{"id": "C100", "title": "The numbers and answers of hfst-summarize are those of the transducer", "statement": "hfst-summarize prints the numbers of states, transitions, final states and epsilons of the transducer, the numbers of transitions of its sparsest and densest state, how often the most ambiguous symbols occur, and the symbols seen and missing; with -S each symbol pair that occurs at most N times, with its number. It answers yes to acceptor, input and output deterministic, cyclic, and cyclic at initial state exactly if the transducer is so.", "quantifier": "all transducers, all thresholds", "why_tests_cant": "The answers depend on all states and transitions together; a cycle can have any length.", "anchors": ["tools/src/hfst-summarize.cc: process_stream, parse_options"]}
{"id": "C101", "title": "hfst-info succeeds exactly if the library has the version and features asked for", "statement": "hfst-info -a V succeeds exactly if the library has version V or a later one, -e V exactly if it has version V, -m V exactly if it has version V or an earlier one, -f F exactly if it has the feature F. A version is one to three runs of digits with full stops between them, compared number by number; anything else makes the tool fail.", "quantifier": "all version texts, all feature names, all ways to build the library", "why_tests_cant": "Versions have numbers of any size; each way to build the library is a different program.", "anchors": ["tools/src/hfst-info.cc: parse_version_string, parse_options, main, print_usage", "configure.ac: HFST_LONGVERSION"]}
{"id": "C102", "title": "hfst-edit-metadata adds, replaces and prints properties as documented", "statement": "hfst-edit-metadata -a NAME=VALUE writes every transducer of the archive with the property NAME set to VALUE, cut to the length of -t, all other properties and the transducer itself as they were; the last value for a name counts. With -p NAME it prints that property of each transducer, without a name all of them, also into the file of -o. The order of the options does not matter.", "quantifier": "all lists of options, all archives, all properties", "why_tests_cant": "There are infinitely many lists of options, and what an option does depends on those before it.", "anchors": ["tools/src/hfst-edit-metadata.cc: parse_options, process_stream, main, print_usage", "libhfst/src/HfstTransducer.cc: set_property"]}
{"id": "C103", "title": "hfst-check-alpha succeeds exactly if the alphabets agree, and says what differs", "statement": "hfst-check-alpha succeeds exactly if the two archives have the same number of transducers and those at the same place have the same symbols on their transitions and the same alphabets. Otherwise it lists exactly the symbols that only the first and only the second one has; that one is a superset of the other is said only if it is.", "quantifier": "all pairs of archives, all transducers", "why_tests_cant": "The answer depends on all transitions of all transducers of both archives.", "anchors": ["tools/src/hfst-check-alpha.cc: process_stream, print_usage"]}
{"id": "C104", "title": "hfst-traverse follows all paths of the labels entered and no others", "statement": "After any lines entered, the paths that hfst-traverse shows are exactly the paths from the initial state that read the lines that could be followed so far, and with each path it offers exactly the transitions of its last state. A line after which there is no path changes nothing, so some path is always shown.", "quantifier": "all transducers, all lists of lines entered", "why_tests_cant": "The number of paths may grow with each line, and the lines that are refused depend on all paths so far.", "anchors": ["tools/src/hfst-traverse.cc: main_loop, print_usage"]}
{"id": "C105", "title": "hfst-strip-header removes the headers of transducers and no other byte", "statement": "hfst-strip-header copies its input without the headers in it: each header, from its first byte to the end of the name of the type, is left out, wherever it is, and every other byte is written in its place. The headers that the library writes are headers.", "quantifier": "all files, any number of headers at any place, all bytes between them", "why_tests_cant": "Bytes that begin like a header may stand anywhere, also right before a header or at the end of the file.", "anchors": ["tools/src/hfst-strip-header.cc: process_stream, print_usage", "libhfst/src/HfstInputStream.cc: read_library_header_old, read_hfst_header", "libhfst/src/HfstOutputStream.cc: operator<<"]}
{"id": "C106", "title": "hfst-name names all transducers of an archive and changes nothing else", "statement": "With -n NAME, hfst-name writes each transducer of the archive in its place, with its content and its other properties, under the name NAME, and with -t LEN under the first LEN bytes of it. With -p it writes no transducer and prints the names in their order.", "quantifier": "all archives, all names, all lengths, all lists of options with -p", "why_tests_cant": "The length of the archive, the properties of its transducers and the name are not bounded.", "anchors": ["tools/src/hfst-name.cc: parse_options, process_stream, main, print_usage", "libhfst/src/HfstTransducer.cc: set_name, get_name, set_property"]}
{"id": "C107", "title": "The guesser of hfst-affix-guessify for prefixes accepts the paths of the transducer and their beginnings with unknown symbols after them", "statement": "With --direction=prefix, the paths that the result accepts are exactly those of the transducer, with their weights, and every path from its initial state, accepted or not, followed by one or more symbols that the transducer does not know, each with the weight given.", "quantifier": "all transducers, all weights, all paths", "why_tests_cant": "There are infinitely many paths, and each state of the transducer is the end of some of them.", "anchors": ["tools/src/hfst-affix-guessify.cc: process_stream"]}
