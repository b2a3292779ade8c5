# Formal model of HFST: design and trusted base

Source: `/repo` (hfst, C++), pinned commit, read as text; nothing of it was built or run.  Paths below are
relative to `/repo/libhfst/src` unless they start with `back-ends`.

## Conventions of the model

* `std::string` is a list of characters (`List Char` for text-level code; each
  `Char` stands for one `char`, the theorems hold for all `Char`s, so in
  particular for the 256 byte values) or a list of bytes (`UInt8`) for binary
  input/output.  Symbols of transducers are kept abstract (`String`, or any type with decidable
  equality) where the code only compares them.
* `std::vector` is `List`/`Array`; `std::map`/`std::set` are association
  lists, functions, or lists without order, depending on what the code observes.
* `float` weights are exact (`Int`, or an ordered additive commutative group).
  Rounding is outside the model.  This is a real simplification: the code adds
  and subtracts floats along a path.
* Exceptions are a distinct outcome (`Option`/`Except`), undefined behaviour
  is a distinct outcome as well.
* Loops are folds or structural recursion; where the code's termination is not
  structural the model carries fuel and a theorem says that enough fuel exists
  and that more fuel does not change the answer, or a termination measure.

The model is in `Verif/Model/*.lean`.  Each definition cites the lines of `/repo` it models.  Small
specifications that do not use the model are in `Verif/Spec/*.lean` or at the top of the file of the theorem,
theorems and concrete cases meeting their hypotheses in `Verif/Props/*.lean`, helper lemmas in
`Verif/Lemmas/*.lean`.

Where the shipped code violates the property as stated, the model keeps the
behaviour of the shipped code, a theorem named `..._violated` proves the
negation on a concrete witness, and `..._partial` proves the part that holds.

## Trusted base

* The kernel of Lean 4.33.0, and the three axioms `propext`, `Classical.choice` and `Quot.sound`.  There are no
  other axioms, no `sorry`, no `native_decide`, no `bv_decide`.  The last column of the table at the end says for
  each theorem which of the three it uses.
* That the definitions in `Verif/Model` say what the cited C++ says.  This was done by reading.  It is the largest
  part of the trusted base.  `seeded/LOG.jsonl` lists wrong versions of the model that were tried against the theorems.
* That the statements in `Verif/Props` say what `properties.jsonl` says.
* What is assumed of code that is not modelled.  It appears as a parameter of the theorems, so that they hold for
  everything with the stated behaviour:
  * ICU's length of the first grapheme (`HfstTokenizer.cc`, pmatch): any function; where needed, it is
    positive and not more than the text for a non-empty text.
  * Printing and reading of numbers with `%f`, `atof` and streams: `readW (showW w) = w` where a round trip needs it.
  * `std::sort`, `std::priority_queue` and the order of `std::set`: any order that meets their contract.
  * The comparison of floats that decides how densely index tables are packed (`tooFull`): any Boolean function.
  * `enc`/`weightOf`: the bits of a weight and the weight of bits, inverse to each other on the weights that occur.
  * The operations of the back-end that the lexc compiler calls (`Backend.Ok` in `Verif/Spec/Lexc.lean`): they compute what they
    are documented to compute on transducers without unknown and identity symbols.  `reference_ok` shows that this can be met.
  * OpenFst and the wrapper around it that `HfstTransducer` calls (`Backend.Ok` in `Verif/Spec/Transducer.lean`): the operations
    compute what they are documented to compute when all symbols are taken literally, on all well-formed transducers with
    integer weights (cycles of negative weight included).  `Trans.reference_ok` shows that this can be met.
  * ICU's division into grapheme clusters and the compiler of regular expressions (lexc): any functions.
  * What a failed read leaves in a variable (`junk`), and what memory holds that was never set: arbitrary.
* The machine: little-endian, 16-bit `unsigned short`, 32-bit `unsigned int` and `float`, two's complement.  Counters
  do not wrap around except where the model says so (unsigned subtraction on `size_t`, 16-bit symbol numbers and
  32-bit table indices, the latter as hypotheses of the theorems).

## What is modelled

| model | code |
|---|---|
| `StdString`, `Text` | `std::string` operations used, `string-utils.cc` |
| `Flags` | `HfstFlagDiacritics.{h,cc}`, `HfstLookupFlagDiacritics.cc`, `HfstSymbolDefs.cc` (removal of flags) |
| `Tokenizer`, `Utf8` | `HfstTokenizer.cc`; `parsers/SfstUtf8.cc`, UTF-8 code in `ospell.cc`, `pmatch_utils.cc` |
| `PairString` | `HfstStrings2FstTokenizer.cc` |
| `Att`, `Prolog` | `implementations/HfstBasicTransducer.cc` 874–1898 (the two text formats, both directions, FILE and stream) |
| `Graph`, `GraphEdit` | `implementations/HfstBasicTransducer.cc`: construction, alphabet, states, transitions, substitution, free insertion, trie disjunction, completion, flag purging |
| `Intersect`, `Distance`, `Lookup` | the same file, 3305–3938 and 4154–4335; `HfstEpsilonHandler.cc` |
| `Harmonize` | `HarmonizeUnknownAndIdentitySymbols.cc` |
| `Symbols` | `implementations/HfstTropicalTransducerTransitionData.cc` |
| `Compose` | `implementations/compose_intersect/` |
| `OlFile`, `OlEncode`, `OlLookup`, `OlLoops`, `OlWalk`, `OlConvert`, `OlSpell` | `implementations/optimized-lookup/transducer.{h,cc}`, `convert.{h,cc}`, `find_epsilon_loops.cc`, `ospell.cc`; `implementations/ConvertOlTransducer.cc`, `HfstOlTransducer.cc` (extraction of paths) |
| `Pmatch` | `implementations/optimized-lookup/pmatch.cc` (matching, locating, tags, captures, calls, lists) |
| `Stream` | `HfstOutputStream.cc`, `HfstInputStream.cc` (headers) |
| `Escapes`, `Med` | `parsers/lexc-utils.cc`, `xre_utils.cc`, `xfst-utils.cc`, `pmatch_utils.cc` (escapes, quoted text, ranges; alignment of the sides of an entry) |
| `Sfst`, `SfstMin`, `SfstCmp` | `back-ends/sfst/fst.{h,cc}`, `operators.cc`, `determinise.cc`, `hopcroft.cc`, `alphabet.{h,cc}` and the operations of `implementations/SfstTransducer.cc` that call them |
| `Lexc` | `parsers/LexcCompiler.cc`, the handlers of `parsers/lexc-parser.yy`, `HfstBasicTransducer.cc` 2712–2830 (substitution with harmonization) |
| `Transducer` | `HfstTransducer.cc` (compose, priority_union, lenient_composition, cross_product, negate, compare, projections, repetitions, `insert_missing_symbols_to_alphabet_from`), `HfstApply.cc` (apply); OpenFst itself is a parameter |
| `Rules` | `HfstRules.cc` (two-level rules, `replace` without contexts, restriction and coercion), the constructor of `HfstTransducer` from a set of symbol pairs |
| `Shuffle` | `HfstTransducer.cc` 4643–4803 |
| `Model/FlagElim.lean` | `libhfst/src/HfstTransducer.cc` 1783-2155 (flag elimination) | the regular expression of `new_filter` is replaced by the actions of the parser; `contains_with_weight` with weight zero is assumed to be `contains` |
| `Model/Convert.lean` | `libhfst/src/implementations/ConvertTropicalWeightTransducer.cc`, `ConvertLogWeightTransducer.cc`, `get_symbol_vector` in `TropicalWeightTransducer.cc` | OpenFst's transducers and symbol tables are data; weights are integers without infinity; the order of evaluation of arguments is from left to right |
| `Model/ProcBuffer.lean` | `tools/src/hfst-proc/buffer.h`, `TokenIOStream::get_token`, `move_back` in `tokenizer.cc` | the input is the list of the tokens still to come |
| `Model/ProcToken.lean` | `LetterTrie` and `Symbolizer` in `tools/src/hfst-proc/alphabet.cc`, reading and printing tokens in `tokenizer.cc` | no null flushing; a superblank carries its text; symbol numbers are not limited to 16 bits |
| `Model/ProcAnalysis.lean` | `AnalysisApplicator::apply` in `tools/src/hfst-proc/applicators.cc` | the lookup is a parameter; capitals and the output format are left out |
| `Model/SfstFile.lean` | `Transducer::store`, `read_transducer_binary` and what they call in `back-ends/sfst/fst.cc`, `Alphabet::store`, `read`, `add_symbol` in `alphabet.cc`, `read_string` in `basic.cc`, reading and writing in `SfstTransducer.cc` | a little-endian machine with 16-bit codes; no errors of the disk; the two hash tables of the alphabet are one list |
| `Model/SfstBasic.lean` | `ConvertSfstTransducer.cc`, the marks on nodes and `incr_vmark` in `fst.h`, `nodeindexing` in `fst.cc`, `is_cyclic` in `operators.cc`, `add_symbol` in `alphabet.cc`, `get_symbol_vector` and `get_symbol_map` in `SfstTransducer.cc` | symbols instead of their numbers in the basic format; when the counter overflows, the marks of all nodes are cleared, not only of those in reach; an iterator of a hash set is taken to stay valid while the set grows |
| `Model/Extract.lean` | `HfstTransducer::extract_paths` and `extract_paths_fd` with a set for the results, `ExtractStringsCb_`, and `extract_paths` and `get_flag_diacritics` of the tropical, log and SFST back-ends, `Alphabet::write_char` | one function for the three back-ends with their differences as parameters; the set is a list without repetitions; weights are integers; `is_cyclic` is a parameter; the range of `int` for counts of visits in SFST is not modelled |
| `Model/TwolcVars.lean` | the iterators over values of variables in `libhfst/src/parsers/variable_src`, `RuleVariables`, `RuleSymbolVector::replace_variables`, and in `htwolcpre1-parser.yy` the actions for a rule and its variables and `set_variable_values` | an iterator into a vector is the vector and a position, and leaving the vector is undefined; the `while` loops have bounds that are proved to be enough (`skip`) or are chosen in the theorem (`writeAll`); the lexer, the other grammar rules and the later passes are not modelled; strings are lists of characters, whose order is that of their UTF-8 bytes |
| `Model/TwolcRules.lean` | `libhfst/src/parsers/rule_src`: the classes of rules with their compilation, the containers that report and resolve conflicts, `TwolCGrammar`, and in `htwolcpre3-parser.yy` the action for a rule | the operations of `OtherSymbolTransducer` are a parameter `Lib`, and that each computes the language that its name says is assumed (`Lib.Right`, shown to be satisfiable by `setLib_right`); letters are symbol pairs; diacritics, undeclared pairs, the unescaping of names and the replacement of internal symbols before storing are not modelled; pointers to rules are positions in a list |
| `Model/ToolStreams.lean` | the loops of `tools/src/hfst-head.cc`, `hfst-tail.cc`, `hfst-split.cc`, of the tools with two inputs, of `hfst-compose.cc` and `hfst-compare.cc`, and `hfst_strtol` | a stream is the list of the transducers still to be read; the operation on a pair is a parameter; `strtol` and `sprintf` as in the C standard, with 64-bit `long` and 32-bit `unsigned int`; messages, names, formulas and the choice of the output format are left out |
| `Model/FlagHarmonize.lean` | `libhfst/src/HfstTransducer.cc`: `has_flags`, `insert_freely_missing_flags_from`, `add_suffix_to_feature_name`, `rename_flag_diacritics`, `harmonize_flag_diacritics`; the bodies of the loops of `hfst-concatenate -F`, `hfst-conjunct -F` and `hfst-subtract -F` | transducers are graphs of the same type; `remove_illegal_flag_paths` is a parameter, assumed to add no sequence and to keep every sequence in which no flag of the first transducer follows one of the second without an ordinary symbol between (`RemovesIllegal`) |
| `Model/Reweight.lean` | `tools/src/hfst-reweight.cc`: `reweight`, `do_reweight`, `process_stream` | weights are integers with exact arithmetic; the function chosen with -F, `hfst_strtoweight` and `remove_epsilons` are parameters; a file is the list of its lines |
| `Model/XfstStack.lean` | `libhfst/src/parsers/XfstCompiler.cc`: `define`, `undefine`, `push(name)`, `pop`, `clear`, `turn`, `rotate`, `read_regex`, `load_stack`, `load_definitions`, `write_stack`, `write_definition`, `write_definitions`, `apply_unary_operation`, `apply_binary_operation`, `apply_binary_operation_iteratively`, `test_operation` | a network is a value of any type with a name; operations, comparison and compilation of expressions are parameters; optimized lookup networks, `push()` without a name, messages, lists and functions are left out |
| `Model/PairTest.lean` | `tools/src/hfst-pair-test.cc`: `get_target`, both `test`, `get_symbols`, `is_empty_or_comment`, `strip_space`, `process_stream` | the tokenizers (with `backslash_escape`) are parameters; of the messages only the names of rejecting rules are modelled |
| `Model/KillPaths.lean` | `tools/src/hfst-kill-paths.cc`: `do_killing`, `process_stream` | weights are integers; `remove_epsilons` is a parameter; a file is the list of its lines |
| `Model/ExpandEquiv.lean` | `tools/src/hfst-expand-equivalences.cc`: `parse_options` (-l), `check_options`, `add_extension`, `process_stream` | the functions of the library are parameters with the laws of `Lawful` (`Spec/ExpandEquiv.lean`), which hold for the relations themselves (`relations_lawful`); weights are left out; an acx file is what libxml makes of it |
| `Model/ToolSubstitute.lean` | `tools/src/hfst-substitute.cc`: `label_to_stringpair`, `do_substitute`, `process_stream` with -f and -t, -F and -R | the functions `substitute` of the library are parameters (their meaning is the subject of other properties); -T, -9 and -C are not modelled; -f comes before -t |
| `Model/ToolRepeat.lean` | `tools/src/hfst-repeat.cc`: the options -f and -t, their checks, `process_stream`; `hfst_strtonumber` | `strtod` is abstracted to the number it gives (not a number, an infinity, or the floor of a finite number); the functions of the library are parameters; `unsigned long` has 64 bits and `unsigned int` 32; -f is read before -t |
| `Model/Summarize.lean` | `tools/src/hfst-summarize.cc`: the loop over states and transitions with all its counters, maps and flags; the missing symbols; the symbol pairs of -S | numbers have no bound; the names of the most ambiguous symbols, the averages and the lines that depend on the type only are left out; symbol pairs are counted without -S, too |
| `Model/ToolInfo.lean` | `tools/src/hfst-info.cc`: `parse_version_string`, the tests of versions and features | a version has no blank or sign before a number and no number too great for a `long`; -a, -e and -m are given at most once; the macros of the build are parameters |
| `Model/EditMetadata.lean` | `tools/src/hfst-edit-metadata.cc`: the options in their order, `process_stream`; `set_property` | texts are lists of bytes; `check_utf8_correctness` is a parameter; the order in which the map of new properties is gone through is left open; warnings are left out |
| `Model/CheckAlpha.lean` | `tools/src/hfst-check-alpha.cc`: `process_stream` | the names of the transducers and what --verbose adds are left out; whether the format has an alphabet is a parameter |
| `Model/Traverse.lean` | `tools/src/hfst-traverse.cc`: `main_loop` | paths in the order of insertion instead of sorted by text; messages other than the continuations, completion and history are left out; only the first transducer of the archive reaches this loop; the question of `--cave-mode` is left out |
| `Model/StripHeader.lean` | `tools/src/hfst-strip-header.cc`: `process_stream` | a byte that is put back is looked at at once; the messages of --verbose are left out |
| `Model/ToolName.lean` | `tools/src/hfst-name.cc`; `set_name`, `get_name` of `libhfst/src/HfstTransducer.cc` | which texts are UTF-8 is a parameter; the number of -t is one that `strtoul` reads; warnings and the messages of --verbose are left out |
| `Model/AffixGuess.lean` | `tools/src/hfst-affix-guessify.cc`: `process_stream`, direction prefix | the direction suffix is not modelled |

Simplifications of the single parts are named in the comments there.  Those that matter most: in the SFST part the
16-bit visit counter, node indices, memory and symbol tables (both operands use the same codes and share no
nodes); in optimized lookup and pattern matching time limits; in pattern matching contexts; in the basic transducer
32-bit overflow of state numbers.

## What is not modelled

The OpenFst and foma back ends and the code that calls them (`TropicalWeightTransducer.cc`, `LogWeightTransducer.cc`,
`FomaTransducer.cc`); the dispatch in `HfstTransducer.cc` to other back ends than OpenFst with tropical weights, and the settings other than the defaults; the grammars of the parsers (lexc, twolc, xre,
xfst, sfst, pmatch) beyond their escape and quoting functions and the actions of lexc; in the lexc compiler the modes with flags and with alignment; replacement in contexts (`HfstRules.cc`), `HfstXeroxRules.cc`; the command line
tools except the parts of hfst-proc named above; the bindings for Python; memory management; concurrency (the library has none of its own).

## Plan per property

| id | model | proof |
|----|-------|-------|
| C01 | `FdOperation::is_diacritic` and parts as list functions | case analysis, equivalence with a grammar |
| C02 | `FdState` as map feature→value, `apply_operation` | induction over histories, spec = last setting operation |
| C03 | `FdTable::define_diacritic` ids, `FlagDiacriticTable` | simulation relation between the two states, induction |
| C04 | `is_valid_string` as shipped | violated: constant true; witness |
| C05 | `remove_flags`, `filter_diacritics` | list lemmas |
| C06,C07 | trie as nested map, `find`, `tokenize` loop with ICU length as parameter | induction over trie depth and over the input |
| C08,C09,C10 | pair tokenization, flag alignment, space splitting | induction |
| C11,C12 | `replace_all`, AT&T writer and reader | general lemma on replace_all, then composition |
| C13 | `prologize_symbol` / `deprologize_symbol` | same |
| C14 | `make_pair_vector` etc. | induction over token list, spec as relation |
| C15–C18 | graph record (list of arc lists, final map, alphabet) with edit operations | invariant over operation lists; witnesses for the violated ones |
| C19–C23 | path semantics (inductive relation) over the graph | simulation on paths |
| C24 | recursive search with handled set and path set | DFS invariant, both directions |
| C25–C27 | lookup recursion with fuel replaced by a measure | induction on runs |
| C28 | worklist product construction | invariant: explored pairs are closed |
| C29 | level-by-level topological sort | invariant on distances |
| C30 | harmonization as arc expansion | path-wise simulation |
| C31 | symbol table as history | invariant |
| C32,C33 | lazily built rule pair and composition worklist | invariant + path simulation |
| C34–C36 | byte serialisation and parsing | round trip lemmas for fixed width integers, then composition |
| C37 | letter trie with backtracking | induction |
| C38 | placeholder tables and packing | uniqueness of start positions |
| C39–C41 | table based lookup | refinement to path semantics; witnesses for violated ones |
| C42 | speller queue | invariant of search |
| C43 | path extraction | violated for the empty path, partial otherwise |
| C44–C46 | stream header | byte level round trip; witnesses |
| C47 | dynamic programming table | optimality by induction |
| C48–C50 | escape functions with buffer capacity | induction |
| C51 | UTF-8 | case analysis on the encoding |
| C52 | code point conversions | bit arithmetic, round trip |
| C53,C54 | insertion of a graph into a graph | simulation on paths, both directions |
| C55 | prolog writer and reader of whole transducers | line by line round trip, then composition |
| C56–C58 | quoted text, braces, ranges | induction over the text; witnesses |
| C59 | search for a loop while reading an input | both directions by invariants of the search; combined with C25/C26 |
| C60 | shortest paths from every state | a negative cycle exists iff a distance to itself gets negative |
| C61,C62 | conversion to tables composed with the lookup, and back | refinement through C38 and C39 |
| C63,C64 | the search with its stack of tapes, calls and captures | induction over the recursion depth; runs as an inductive relation; longest match as an order |
| C65 | nodes in memory as numbered lists of arcs; recursive copying with a table of copied nodes | depth-first invariants; languages as sets of label sequences |
| C66 | sets of nodes and the recursion of determinisation and intersection | simulation; number of sets bounds the recursion |
| C67 | composition with epsilon arcs on either side | both directions on paths |
| C68 | Hopcroft's partition refinement with agenda; double reversal | invariant: what is on the agenda splits the rest; distinct rows give minimality (Myhill–Nerode counting) |
| C69 | simultaneous walk; completion; intersection with the complement | uniqueness of minimal automata up to names |
| C70 | walking down and branching off | exact on trees; witnesses elsewhere |
| C71 | compiler state with the registered symbols, trie, regular expressions; compilation over a back-end given by what its operations compute | invariant over the lines of the file (tokens of marked texts), then languages through star, filter and substitution; witnesses by evaluation with a reference back-end |
| C72 | composition over a back-end for literal symbols, on the harmonized transducers, with the renaming of unknown and identity before and after | meaning of a transducer as the concrete sequences it stands for; case analysis per joined pair, induction over the join; witness for the half that fails |
| C73 | `apply`, complement, repetitions, projections, comparison over the same back-end | meanings of harmonized transducers (C30) through each operation; induction over the repetitions |
| C74 | priority union and lenient composition as the code builds them from the above | C72 and C73 put together, with the composition of an automaton kept on the input side |
| C75 | `cross_product` as the code builds it, with the marks and the test by projection | meanings of the two padded halves; the join of two mark sequences of equal length; the last substitution turned into what unknown pairs may stand for |
| C76 | the two-level rules as HfstRules.cc builds them from concatenations, differences and intersections, and the transducer of a set of symbol pairs | the meaning of every intermediate transducer with the theorems of C73; the rule in terms of splits of the string |
| C77 | `restriction` with the markers, the projections, the compositions and the substitution of the marker | the meaning of transducers with markers under every operation and under erasing a marker; uniqueness of the split at the markers |
| C78 | `replace`, `replace_up`, `replace_down` and `left_replace_up` without contexts | the meaning of every intermediate transducer with the theorems of C73; the star of pieces as an inductive relation on strings; existence of an image by strong induction, taking the match that ends first |
| C79 | `shuffle` with the coding of the symbols, free insertion, intersection and decoding | paths of the coded transducers are coded paths with foreign symbols in between; two such paths agree exactly on an interleaving |
| C80 | the table of flag pairs, the filter for each flag, their intersection, unescaping, two compositions and the purge | the filters are denoted by sets of strings; the last flag that sets a feature decides (`Blocked`), which is compared with the run-time meaning of the flags by induction over the string |
| C81 | the loops over states, transitions and final weights in both directions, the symbol tables and the vector of numbers | a lemma about copying states one after the other under an injective renumbering; paths by induction |
| C82 | the same for log weights, with the map of states built on the way | the same lemma for the import; for the export an invariant: the map is one to one and onto, and the first state has all transitions so far |
| C83 | the circular buffer with its position, and the stream over it | an invariant that says which token of the input each element of the buffer is; by induction over the calls |
| C84 | the trie and the shortcut for single bytes, the cases of `read_token`, the printing of tokens | the trie refines a table of strings; by induction over the tokens of the text |
| C85 | one round of the loop over tokens, with the buffer of C83 | an invariant of the rounds: where the current word starts, how far it was followed and where the last word in it ended; by induction over the number of tokens still to be divided |
| C86 | the two recursive walks over nodes and arcs on bytes, the array of new nodes, the alphabet | both walks are shown to do what copying a transducer (C65) does, by induction over the depth and over the arcs of a node; then what is known about copies applies |
| C87 | the recursive walks with their marks, as functions from marks to marks, and calls one after the other | induction over the depth of the walk with the marked nodes as the invariant; the search for cycles with the list of nodes done with, each leading only to later ones; histories by an invariant on both counters and on the marks |
| C88 | the recursive search with the states on the path, all states visited, flags and the state of the callback | induction over the depth: what a part of the search collects are the paths below its state, up to the point where it is stopped; the end of the search by counting visits |
| C89 | iterators with `next`, `==` and `set_values`, the loop over all combinations and the map of values | a chain of states for each iterator; the chain of a product from the chains of its factors, and of a mixed block as a part of it; then the loop by induction over the chain |
| C90 | the grammar as a list of rules with the maps of the containers, a rule as center and context with marks around the place | languages of contexts and centers with marks; an invariant over the rules that were added (what each stored rule still says and what all of them cover); then a second one for narrower rules |
| C91 | the loops over the streams as functions of the lists of transducers, with the pointers kept from round to round | induction over the archives; the counter of 32 bits as `UInt32`; the texts of options as lists of characters |
| C92 | renaming and the insertion of missing flags as functions on graphs, followed by the operations of C73 | the sequences of the renamed and extended graphs in terms of those of the given graphs; flags with different suffixes do not influence each other; for the conjunction a common sequence with the flags of both is put together from one of each |
| C93 | the copying loop with the map of state numbers as in the code, the options as a record, the loop over the lines and over the archive | an invariant of the copying loop: the map is one-to-one, and the transitions copied so far correspond one by one; then induction over paths; induction over the lines |
| C94 | the session as stack, definitions, and definitions of the regular expression compiler; the commands as functions on sessions | invariants over all histories (both sets of definitions agree; every name occurs once), round trips for the files, induction over the stack for the operations and the tests |
| C95 | the loops over transitions, pairs, rules, lines and cases as in the code, with the exit codes as numbers | `get_target` finds exactly the target of the transitions that take the pair; induction over the pair string, the rules and the lines |
| C96 | the copying loop with the map of state numbers as in the code, the loop over the lines, the loop over the archive with the state of the pointer `symbol` | the loop does the same as that of C93 on the transducer without the transitions that are skipped; induction over paths and lines |
| C97 | the loops over the characters, fields and lines of the file of -T, the lines that are left for each transducer, the compositions | fields of a line by induction over its characters; the disjunction and its repetition by induction over strings |
| C98 | the loop that looks for the colon, with the case in which it does not move; the lines, the two maps and their flags; the lines that are left for each transducer | invariant of the loop: no earlier colon divides the label; induction over the lines for the maps |
| C99 | the conversion of the options with its cuts and infinities, the two checks, the choice among the three functions, the loop | cases of the options, arithmetic of the conversions, induction over the archive |
| C100 | the whole loop with its variables | three invariants: over all transitions seen, over those of one state, over the states; a map of counts stands for the list it counts |
| C101 | the version parser and its one number for three; the tests in their order | the runs of digits are what `strtoul` reads; below 10000 the number orders as the three numbers do |
| C102 | the variables that the options set one after the other; the loop over the new properties; the three things that can happen to a transducer | induction over the options for the map, over the map for the properties, over the archive |
| C103 | the symbols seen, the four differences, the loop over both archives | membership in folds of insertions; induction over both archives |
| C104 | the set of paths and one line | the paths are those of the labels followed, kept by each line; induction over the lines |
| C105 | the loop over the bytes with the number of bytes of the header found | the bytes held back are the beginning of a header; induction over the bytes |
| C106 | the options and the loop over the archive | induction over the archive and over the options |
| C107 | the new state and the transitions to it | the transitions of each state of the result; induction over paths |

## Where the code and the property disagree

Each line is proved as a theorem on the model, `…_violated` (or the name given).

* C03: a flag with an empty value (`@P.F.@`) clears the feature in one engine and sets it in the other.
* C04: the check of a whole sequence never says no; the search for a flag in a string misses flags.
* C06: text after a NUL byte is dropped; registering a symbol with byte 255 writes outside a vector.
* C09: flags that do not meet make symbols of one side appear on the other.
* C11: symbols such as TAB 0 TAB do not survive the AT&T format.
* C12: states that nothing mentions are lost; reading from a stream gives the empty transducer; with symbol numbers final weights are lost.
* C13: the reader refuses transitions with symbols that end in a backslash.
* C14: five kinds of tokens (escaped epsilon, empty symbol, backslash, tab, colon after escaped backslash) are not read as documented.
* C15: some substitutions and removals take symbols out of the alphabet that are still used, even epsilon.
* C17: of two neighbouring transitions with the pair one stays.
* C18: with two final states one final weight is lost.
* C23: two transitions with the pair in one state: an iterator is used after it has been invalidated.
* C24: a cycle that cannot be reached makes the answer yes.
* C25: flags that the input itself provides are not checked.
* C26: with negative weights and a limit analyses are lost.
* C28: transitions are sorted by target, but searched as if sorted by symbol, so that common paths are lost; the start weights are not added.
* C29 (`C29_cyclic`): with a cycle in reach the sort never ends.
* C30: if epsilon is not in an alphabet, harmonization adds epsilon transitions.
* C33: flags known to two rules pass freely; nondeterministic rules and several identity transitions give wrong results.
* C36: setting a header property to false sets it to true.
* C37: an input that ends inside a character is read past its end.
* C39: runs of 5000 transitions are given up; cycles with flags lose analyses.
* C40, C62: enumerating transitions reads past the index table in nearly every converted transducer.
* C41: the search for loops may not end; flags give wrong yes, unknown symbols wrong no answers.
* C42: words with characters that the lexicon only accepts as unknown are refused; the name of epsilon shows in suggestions; an error model writing the unknown symbol makes the search read outside the tables.
* C43: the empty path is never reported.
* C45: properties of a transducer are taken over by the following ones in the stream.
* C46: for two old types the length of the header is reported wrongly; a stream that ends inside the identifier is left failed.
* C48: the placeholder `@PERCENT@` in a text is read as a percent.
* C49: text of white space only makes the code read before its buffer.
* C50: a percent is not escaped, so stripping loses it.
* C55: reading a prolog text from a stream always throws.
* C56: hexadecimal escapes are read as decimal numbers; octal escapes swallow a character or leave the buffer; after an escaped code point in a pattern file the rest is lost.
* C58: characters of three and four bytes are read as two-byte characters.
* C59 (`C59_dead_end`): a loop that leads nowhere is reported as well.
* C61: looking up an unknown symbol may read outside the index table; output-only symbols are taken for unknown.
* C63: `single_codepoint_tokenization` loses accents; a class of symbols that writes a plain symbol loses the text; a matched boundary shifts the positions.
* C64: whether an empty match is written depends on memory that was never set; weight limits ignore final weights.
* C65: inserting freely keeps the mark "deterministic"; replacing epsilon does not respect equivalence.
* C70: adding a path to a transducer with shared nodes adds other sequences; the mark "minimised" stays, so that a later comparison is wrong.
* C71: regular expressions with the same lexicon and continuation get the smallest weight of all; those of `A` → `B_C` and `A_B` → `C` are mixed up; only the first compilation of a process recognises a first lexicon that is not `Root`; a compiler made without arguments accepts nothing; symbols with `@_` at the beginning or `$` at the end make entries disappear.
* C72: the composition of `?:a` and `a:?` does not map `b` to `b`: the result is `?:?`, which stands for different symbols only.
* C73: `repeat_n_to_k(2, 1)` accepts two or more repetitions: `k - n` is computed without a sign.
* C74: the priority union of `a` and a flag diacritic that `a` does not know does not accept the flag diacritic: the complement is built over the alphabet of the first transducer, and flag diacritics are never matched by identity.
* C75: the cross product of a flag diacritic and `a` is empty: unknown is not expanded to flag diacritics when the string is composed with the marks.
* C76: `HfstTransducer(StringPairSet(), type)` accepts the empty string instead of nothing. Therefore `two_level_only_if` without mappings rejects strings, and `two_level_if` forbids the right context directly after the left context when no pair of the alphabet has the input symbol of a mapping.
* C77: `surface_restriction`, `surface_coercion`, `deep_restriction`, `deep_coercion` and the combined versions change the mapping that the caller passes: it becomes its input projection composed with the alphabet, or its output projection. A second call with the same variable gives another rule.
* C78: an obligatory rule whose mapping accepts the empty string accepts nothing, since every kept part contains the empty string.
* C79: the result of `shuffle` has only those symbols in its alphabet that are on its transitions. A symbol that an argument knows but never uses becomes unknown, so the identity symbol stands for it: the shuffle of `\a` (any symbol but `a`) with `b` accepts `ab`. The check that the arguments are automata compares the two symbols of each transition, so `?:?` (any pair of different symbols) is not noticed when nothing has to be expanded.
* C80: flag elimination is wrong in four ways. (1) An `R` flag whose feature no flag sets gets no filter, so `a @R.F.V@ b` becomes `ab` although the flag never lets through (`C80_required_violated`). (2) The table has no case for `U` after `N` with another value, and fails `D` after such an `N`: `@P.F.A@ @N.F.B@ @U.F.C@` lets through but is lost (`C80_negative_violated`). (3) The identity symbol of the filters does not stand for flags, so every path with a flag that no filter mentions is lost (`C80_unrelated_violated`). (4) For the same reason the elimination of one feature loses the paths with flags of other features (`C80_otherFeature_violated`).
* C81: the import of OpenFst transducers with tropical weights uses the name of label 0 instead of epsilon (`C81_epsilonName_violated`: with OpenFst's usual `<eps>` epsilon becomes a symbol), does not use the symbol table for the output (`C81_outputTable_violated`), turns labels without a name into epsilon unless they are greater than all that have one (`C81_gap_violated`), and uses a null pointer for an empty transducer without symbol tables and without a header (`C81_empty_violated`).
* C82: the export to log weights never changes `source_state`, so all transitions leave the first state: `ab` becomes `b` (`C82_export_violated`, `C82_export_flat`).
* C83: going back by the whole size of the buffer does nothing (`C83_whole_violated`), and looking back right after the buffer has gone round is undefined (`C83_look_violated`).
* C84: hfst-proc leaves out a backslash before a character that is not reserved (`C84_backslash_violated`), prints only `<` for a symbol that starts with it and is no tag (`C84_less_violated`), loses what it has read of a symbol that is cut at the end of the input (`C84_cut_violated`), takes the name of epsilon for the end of the input (`C84_epsilon_violated`), and is undefined on NUL, byte 255 and a backslash at the end (`C84_bytes_violated`).
* C85: hfst-proc loses text if a word of the transducer starts with a character that is not alphabetic (`C85_lost_violated`), never ends on a text that ends with an unknown word (`C85_forever_violated`), does not print a known word at the end (`C85_end_violated`), prints text of a cut longer word as part of a shorter one (`C85_cut_violated`), and goes wrong when the buffer goes round (`C85_long_violated`, `C85_round_violated`).
* C86: nodes are numbered once; a transducer to which a path was added after its states were counted is stored with whatever is in memory for the new nodes (`C86_stale_violated`). The number of label pairs is cut to 16 bits (`C86_pairs_violated`). Symbols of 100000 bytes are written but not read (`C86_long_violated`).
* C87: conversion marks nodes with a counter of its own that starts at 10000 and is only counted up if the root has that mark. `is_cyclic` stops at the first cycle and leaves old marks on the other nodes; the next conversion takes them for its own and leaves out the transitions and final states of these nodes (`C87_cyclic_violated`). The counter of a transducer meets the marks of conversion after ten thousand walks (`C87_ten_thousand_violated`). Symbols on transitions that are not in the alphabet become epsilon (`C87_alphabet_violated`), and a symbol `<>` in the alphabet makes conversion throw a string (`C87_refused`).
* C88: after the search the empty path is reported to the callback whatever the callback said last, so `max_num` results can become one more (`C88_limit_violated`). The back-end with log weights does not report the empty path at all (`C88_log_violated`). With `max_num` at least 1 and no limit on cycles a cyclic transducer is not refused, and the search does not end if too few paths are accepted (`C88_endless_violated`).
* C89: a block of mixed variables that cannot be given different positions (`where x in (a) y in (b) mixed`) has an iterator whose beginning is its end, so the rule is taken for one without variables and is written with them unreplaced (`C89_mixed_violated`); beside another block the values are read from behind the end of a vector (`C89_undefined_violated`). An empty list of values throws `EmptyContainer`, which is caught nowhere (`C89_novalues_violated`).
* C90: whether a conflict of `<=` rules can be resolved depends on the order of the rules. With `x:y <= _ ; x:u <= b a _ ; x:z <= a _ ;` the first rule has already lost the places of the second when the third comes, so that neither of the two contains the other: the conflict is reported as unresolvable and no word with `x` after `a` is accepted, although the three sets of places are nested (`C90_order_violated`). `conflicts_this` does not compare the outputs of the centers, although `ConflictResolvingLeftArrowRule.h` says so; rules that demand the same pair are reported as being in conflict (`C90_same_pair_violated`).
* C91: in `hfst-head.cc` the loop `for (unsigned int i = 0; i < -head_count; i++)` never ends if K is 2^32 or more, and for K of 2^63 or more the sign of the smallest `long` is changed (`C91_head_endless_violated`). The help text of `hfst-tail` says that without K all transducers except the first are written; `+1` writes all (`C91_tail_default_violated`). `hfst-compose` accepts one transducer in the first input and several in the second, but `compose` changes the first one in place, so that the results are those of a chain of compositions (`C91_compose_violated`). With `-F` the second transducer, which is documented to be kept constant, gets its flags renamed in every round (`C91_constant_violated`).
* C92: in `hfst-subtract -F` the renamed flags of the second transducer are inserted freely in the first, where the paths without them remain; the second has no path without them, so nothing is removed (`subtract_nothing`, `C92_subtract_violated`). `rename_flag_diacritics` builds a new transducer from the transitions, so symbols that are in the alphabet only are forgotten and unknown and identity symbols mean more than before (`C92_alphabet_violated`). Not modelled: `harmonize_flag_diacritics` throws `TransducerTypeMismatchException` outside the `try` of the tools when the types differ.
* C93: in `hfst-reweight -T` the variables `addition` and `multiplier` are set to their neutral values once for each transducer, not for each line, so that a line with BVAL also adds the AVAL of an earlier line (`C93_rules_violated`). `lower_bound` is 0 by default, although the help text says it is the minimum of the weight structure (`C93_negative_violated`). `free(symbol)` is called for each transducer; with `-S` and a file without rules the same pointer is freed again (`C93_freed_violated`). The copy forgets the symbols that are in the alphabet only (`C93_alphabet_violated`). Not modelled: the help text names the option `--tsv-file`, the program only knows `--tsv`.
* C94: in `XfstCompiler.cc`, `rotate` moves the networks to another stack and so reverses them (`C94_rotate_violated`). `add_loaded_definition` changes `definitions_` only, and the regular expression compiler still has the old definition or none (`C94_names_violated`, `C94_unknown_violated`). `write_definition` names the network only if `name-nets` is on, and `load defined` skips networks without a name (`C94_write_definition_violated`). `union net` and `shuffle net` use all networks on the stack, although their help texts speak of the top two (`C94_union_violated`); so do `test overlap` and `test sublanguage` (`C94_tests_violated`). When `compose net` fails because of flags, the network popped before is neither used nor pushed back (`C94_lost_violated`).
* C95: `hfst-pair-test` takes the known symbols from the transitions of the first rule (`get_symbols(grammar[0], ...)`) and uses them for every rule. In a file whose rules have different alphabets a pair string can pass that a rule rejects, and fail that all rules accept (`C95_symbols_violated`). `get_target` follows the first matching transition only (`C95_nondeterministic_violated`). Grammars written by `hfst-twolc` have neither problem.
* C96: the copy made by `hfst-kill-paths` has only the symbols of the transitions that are left in its alphabet. The killed symbol is unknown to it, and the identity symbol stands for it: a transducer that did not accept the symbol can accept it afterwards (`C96_identity_violated`). With `-T` the symbol of `-S` is freed and not used (`C96_both_violated`), and freed again for each transducer if the file has no symbols (`C96_freed_violated`).
* C97: `hfst-expand-equivalences -T` opens the file once and reads it to its end for the first transducer; the other transducers of the archive are written as they were (`C97_archive_violated`). The code for `-a` is compiled only with `HAVE_LIBXML_TREE_H`, which no build file of the repository sets; without it the option is accepted and nothing is expanded (`C97_acx_violated`). The error message advises `@0@` for the empty string, but it is an ordinary symbol (`C97_epsilon_violated`). The help text names the levels "surface" and "analysis", which are refused (`C97_level_violated`).
* C98: the loop of `label_to_stringpair` does not move if the colon is the second character and the first one is a backslash: `hfst-substitute -f '\:a'` never ends (`C98_never_violated`). `-f a:b -t c` asks for the symbol named `a:b` and reports success (`C98_mixed_violated`). With `-F` the file is read to its end for the first transducer and the others stay as they are (`C98_archive_violated`). In the file `@0@` is not epsilon, although the error message says so and `-f` takes it so (`C98_zero_violated`).
* C99: `hfst_strtonumber` gives 0 for infinity, and the check that FNUM is not above TNUM does not look at the flag: `hfst-repeat -f 1 -t inf` fails although infinity is the default (`C99_to_infinity_violated`), while `-f inf` accepts the empty string (`C99_from_infinity_violated`) and `-t -inf` means any number of times (`C99_minus_infinity_violated`). Negative numbers become great ones (`C99_negative_violated`), great ones are cut (`C99_large_violated`), `nan` is converted to `int` (`C99_nan_violated`).
* C100: `cyclic` is set only by a transition that leads back to the state it leaves: `hfst-summarize` says that the transducer of `[a b]*` is not cyclic, nor cyclic at its initial state (`C100_cyclic_violated`).
* C101: the test of `-m` compares in the wrong direction: `hfst-info -m 4` fails for version 3.17.1 and `-m 3.16` succeeds (`C101_max_violated`). The macros of foma, xfsm and OpenFst are tested without a negation: `-f openfst` fails if OpenFst is there (`C101_feature_violated`). `-e 2.10017.1` succeeds (`C101_great_number_violated`), and so does `-a ..` (`C101_empty_violated`). Not modelled: the help text names `--requirefeature`, the option is `--require-feature`, and options that are not known are ignored.
* C102: `print_all_properties` starts as true and only `-a` makes it false: `hfst-edit-metadata -p name` prints all properties (`C102_print_violated`), `-a k=v -p name` prints the old value and writes nothing, and uses the end of the map if there is no such property (`C102_add_print_violated`), `-a k=v -p` and `-p -a k=v` differ (`C102_order_violated`). `outfile` is closed before it is printed to (`C102_output_violated`). `-t` cuts bytes, and `set_property` throws if a character was cut (`C102_truncate_violated`).
* C103: `hfst-check-alpha` prints "First alpha is superset of second" exactly if no symbol is in the first but not in the second, which is a subset (`C103_superset_violated`). The loop ends with the shorter archive, and the tool succeeds (`C103_length_violated`).
* C105: `hfst-strip-header` holds back bytes that may begin a header and does not write them at the end of the file, so that a file that ends with `H` loses it (`C105_end_violated`). It looks for `HFST3` and a NUL, but the library writes `HFST` and a NUL, so that no header of a file written today is removed (`C105_written_violated`).
* C106: `hfst-name -t LEN` cuts the name after LEN bytes. If this is inside of a character, the test for UTF-8 throws and nobody catches it (`C106_truncate_violated`).

Seen while reading, not proved:

* SFST: `read_transducer_*` mark what they read as deterministic and minimal without looking; node indices computed once
  are not computed again after arcs were added; comparing a minimised transducer with itself says no (the library
  always copies first); `enumerate_paths` does not end on cyclic transducers; `subtract` changes the alphabets of its operands.

* lexc: repeated lexicon names count as errors only if the warning about them is off (`LexcCompiler.cc` 1164); `?` in one
  regular expression does not cover symbols that only occur in a later one; a text that ends like the beginning of a
  declared flag runs into the padding of the shorter side; a gloss `weight:` without a number throws; a lexicon
  named `#` at the beginning accepts the empty word.

## Theorems

Status of the property, the theorems named in `MANIFEST.json`, where they are, and the axioms they use
(P `propext`, C `Classical.choice`, Q `Quot.sound`, – none).

| property | status | theorem | file | axioms |
|---|---|---|---|---|
| C01 | proved | `Flags.C01_isDiacritic_iff` | `Props/Flags.lean` | P C Q |
|  |  | `Flags.C01_parts` | `Props/Flags.lean` | P C Q |
|  |  | `Flags.C01_respell` | `Props/Flags.lean` | P C Q |
| C02 | proved | `Flags.C02_answer` | `Props/FlagEngines.lean` | P C Q |
|  |  | `Flags.C02_independent` | `Props/FlagEngines.lean` | P C Q |
|  |  | `Flags.C02_frame` | `Props/FlagEngines.lean` | P Q |
|  |  | `Flags.C02_lastSet` | `Props/FlagEngines.lean` | P Q |
| C03 | partial | `Flags.C03_engines_agree_partial` | `Props/FlagEngines.lean` | P C Q |
|  |  | `Flags.C03_violated` | `Props/FlagEngines.lean` | P C Q |
| C04 | partial | `Flags.C04_violated` | `Props/Flags.lean` | P C Q |
|  |  | `Flags.C04_never_false_violated` | `Props/Flags.lean` | P C Q |
|  |  | `Flags.C04_findDiacritic_never_violated` | `Props/Flags.lean` | P C Q |
|  |  | `Flags.C04_accepts_valid_partial` | `Props/Flags.lean` | P C Q |
| C05 | proved | `Flags.C05_removeFlags` | `Props/Flags.lean` | P Q |
|  |  | `Flags.C05_removeFlagsPairs` | `Props/Flags.lean` | P Q |
|  |  | `Flags.C05_removeFlagsPath` | `Props/Flags.lean` | P Q |
| C06 | partial | `Tok.C06_tokenize_split` | `Props/Tokenizer.lean` | P C Q |
|  |  | `Tok.C06_tokenize_graphemes` | `Props/Tokenizer.lean` | P Q |
|  |  | `Tok.C06_nul_violated` | `Props/Tokenizer.lean` | P Q |
|  |  | `Tok.C06_byte255_violated` | `Props/Tokenizer.lean` | P |
| C07 | proved | `Tok.C07_longest` | `Props/Tokenizer.lean` | P Q |
| C08 | proved | `Tok.C08_pairUp` | `Props/Tokenizer.lean` | P Q |
|  |  | `Tok.C08_unpad` | `Props/Tokenizer.lean` | P C Q |
| C09 | partial | `Tok.C09_kept` | `Props/Tokenizer.lean` | P Q |
|  |  | `Tok.C09_violated` | `Props/Tokenizer.lean` | P C Q |
|  |  | `Tok.C09_aligned_partial` | `Props/Tokenizer.lean` | P C Q |
| C10 | proved | `Tok.C10_split_join` | `Props/Tokenizer.lean` | P Q |
|  |  | `Tok.C10_form` | `Props/Tokenizer.lean` | P Q |
| C11 | partial | `Att.C11_partial` | `Props/Att.lean` | P C Q |
|  |  | `Att.C11_violated` | `Props/Att.lean` | P C Q |
| C12 | partial | `Att.C12_partial` | `Props/Att.lean` | P C Q |
|  |  | `Att.C12_language` | `Props/Att.lean` | P C Q |
|  |  | `Att.C12_violated` | `Props/Att.lean` | P C Q |
|  |  | `Att.C12_stream_violated` | `Props/Att.lean` | P C Q |
|  |  | `Att.C12_stream_language` | `Props/Att.lean` | P C Q |
|  |  | `Att.C12_number_violated` | `Props/Att.lean` | P C Q |
| C13 | partial | `Prolog.C13` | `Props/Prolog.lean` | P C Q |
|  |  | `Prolog.C13_arc` | `Props/Prolog.lean` | P C Q |
|  |  | `Prolog.C13_arc_violated` | `Props/Prolog.lean` | P C Q |
| C14 | partial | `PairString.C14_groups` | `Props/PairString.lean` | P C Q |
|  |  | `PairString.C14_pairs_partial` | `Props/PairString.lean` | P C Q |
|  |  | `PairString.C14_colon` | `Props/PairString.lean` | P C Q |
|  |  | `PairString.C14_unescape` | `Props/PairString.lean` | P C Q |
|  |  | `PairString.C14_stringPair_partial` | `Props/PairString.lean` | P C Q |
|  |  | `PairString.C14_stringPair_identity_partial` | `Props/PairString.lean` | P C Q |
|  |  | `PairString.C14_stringPair_refused` | `Props/PairString.lean` | P C Q |
|  |  | `PairString.C14_spaces` | `Props/PairString.lean` | P |
|  |  | `PairString.C14_spaces_total` | `Props/PairString.lean` | P Q |
|  |  | `PairString.C14_escaped_epsilon_violated` | `Props/PairString.lean` | P C Q |
|  |  | `PairString.C14_empty_symbol_violated` | `Props/PairString.lean` | P C Q |
|  |  | `PairString.C14_backslash_violated` | `Props/PairString.lean` | P C Q |
|  |  | `PairString.C14_tab_violated` | `Props/PairString.lean` | P C Q |
|  |  | `PairString.C14_refusal_violated` | `Props/PairString.lean` | P C Q |
| C15 | partial | `Basic.C15_states` | `Props/GraphEdit.lean` | P C Q |
|  |  | `Basic.C15_finalMap` | `Props/GraphSplice.lean` | P C Q |
|  |  | `Basic.C15_alphabet_partial` | `Props/GraphEdit.lean` | P C Q |
|  |  | `Basic.C15_violated` | `Props/GraphOps.lean` | P C Q |
|  |  | `Basic.C15_used_violated` | `Props/GraphOps.lean` | P C Q |
| C16 | proved | `Basic.C16_removeTransition` | `Props/GraphOps.lean` | P C Q |
| C17 | partial | `Basic.C17_violated` | `Props/GraphOps.lean` | P |
|  |  | `Basic.C17_partial` | `Props/GraphOps.lean` | P Q |
|  |  | `Basic.C17_keeps_others` | `Props/GraphOps.lean` | P Q |
| C18 | partial | `Basic.C18_violated` | `Props/GraphOps.lean` | P Q |
|  |  | `Basic.C18_partial` | `Props/GraphOps.lean` | P C Q |
| C19 | proved | `Basic.C19_substitute` | `Props/GraphPaths.lean` | P C Q |
|  |  | `Basic.C19_substituteMap` | `Props/GraphPaths.lean` | P Q |
|  |  | `Basic.C19_substitutePairMap` | `Props/GraphPaths.lean` | P Q |
|  |  | `Basic.C19_substitutePairSet` | `Props/GraphPaths.lean` | P Q |
|  |  | `Basic.C19_substituteFunc` | `Props/GraphPaths.lean` | P Q |
| C20 | proved | `Basic.C20_disjunct` | `Props/GraphTrie.lean` | P C Q |
|  |  | `Basic.C20_history` | `Props/GraphTrie.lean` | P C Q |
| C21 | proved | `Basic.C21_refuses` | `Props/GraphPaths.lean` | P Q |
|  |  | `Basic.C21_total` | `Props/GraphPaths.lean` | P C Q |
|  |  | `Basic.C21_keeps` | `Props/GraphPaths.lean` | P C Q |
|  |  | `Basic.C21_language` | `Props/GraphPaths.lean` | P Q |
| C22 | proved | `Basic.C22_insertFreely` | `Props/GraphPaths.lean` | P Q |
| C23 | partial | `Basic.C23_violated` | `Props/GraphSplice.lean` | P C Q |
|  |  | `Basic.C23_defined_iff` | `Props/GraphSplice.lean` | P C Q |
|  |  | `Basic.C23_substituteGraph_partial` | `Props/GraphSplice.lean` | P C Q |
|  |  | `Basic.C23_substituteGraphs` | `Props/GraphSplice.lean` | P C Q |
|  |  | `Basic.C23_oneSided` | `Props/GraphSplice.lean` | P C Q |
| C24 | partial | `Basic.C24_exact` | `Props/Ambiguity.lean` | P C Q |
|  |  | `Basic.C24_partial` | `Props/Ambiguity.lean` | P C Q |
|  |  | `Basic.C24_unreachable_violated` | `Props/Ambiguity.lean` | P C Q |
| C25 | partial | `Basic.C25_partial` | `Props/Lookup.lean` | P C Q |
|  |  | `Basic.C25_limit` | `Props/Lookup.lean` | P C Q |
|  |  | `Basic.C25_flag_input_violated` | `Props/Lookup.lean` | P C Q |
| C26 | partial | `Basic.C26_partial` | `Props/Lookup.lean` | P C Q |
|  |  | `Basic.C26_negative_weight_violated` | `Props/Lookup.lean` | P C Q |
| C27 | proved | `Basic.C27` | `Props/Lookup.lean` | P C Q |
| C28 | partial | `Basic.C28_partial` | `Props/Intersect.lean` | P C Q |
|  |  | `Basic.C28_sound` | `Props/Intersect.lean` | P C Q |
|  |  | `Basic.C28_total` | `Props/Intersect.lean` | P C Q |
|  |  | `Basic.C28_order_violated` | `Props/Intersect.lean` | P C Q |
|  |  | `Basic.C28_start_violated` | `Props/Intersect.lean` | P C Q |
| C29 | proved | `Basic.C29` | `Props/Distance.lean` | P C Q |
|  |  | `Basic.C29_sizes` | `Props/Distance.lean` | P C Q |
|  |  | `Basic.C29_cyclic` | `Props/Distance.lean` | P C Q |
| C30 | partial | `Basic.C30_partial` | `Props/Harmonize.lean` | P C Q |
|  |  | `Basic.C30_refused` | `Props/Harmonize.lean` | P C Q |
|  |  | `Basic.C30_specials_violated` | `Props/Harmonize.lean` | P C Q |
| C31 | proved | `Symbols.C31_number` | `Props/Symbols.lean` | P C Q |
|  |  | `Symbols.C31_stable` | `Props/Symbols.lean` | P C Q |
|  |  | `Symbols.C31_injective` | `Props/Symbols.lean` | P C Q |
|  |  | `Symbols.C31_specials` | `Props/Symbols.lean` | P C Q |
|  |  | `Symbols.C31_refused` | `Props/Symbols.lean` | P C Q |
|  |  | `Symbols.C31_vector` | `Props/Symbols.lean` | P C Q |
|  |  | `Symbols.C31_reverse` | `Props/Symbols.lean` | P C Q |
| C32 | proved | `Compose.C32` | `Props/Compose.lean` | P C Q |
| C33 | partial | `Compose.C33_partial` | `Props/ComposeLang.lean` | P C Q |
|  |  | `Compose.C33_flags_violated` | `Props/ComposeCases.lean` | P C Q |
|  |  | `Compose.C33_nondeterministic_violated` | `Props/ComposeCases.lean` | P C Q |
|  |  | `Compose.C33_identities_violated` | `Props/ComposeCases.lean` | P C Q |
| C34 | proved | `Ol.C34` | `Props/OlFile.lean` | P Q |
|  |  | `Ol.C34_exact` | `Props/OlFile.lean` | P Q |
|  |  | `Ol.C34_short` | `Props/OlFile.lean` | P Q |
|  |  | `Ol.C34_property` | `Props/OlFile.lean` | P Q |
| C35 | proved | `Ol.C35` | `Props/OlFile.lean` | P C Q |
|  |  | `Ol.C35_unweighted` | `Props/OlFile.lean` | P C Q |
|  |  | `Ol.C35_exact` | `Props/OlFile.lean` | P C Q |
|  |  | `Ol.C35_truncated` | `Props/OlFile.lean` | P C Q |
|  |  | `Ol.C35_specials` | `Props/OlFile.lean` | P C Q |
| C36 | partial | `Ol.C36_partial` | `Props/OlFile.lean` | – |
|  |  | `Ol.C36_violated` | `Props/OlFile.lean` | – |
| C37 | proved | `Ol.C37_longest` | `Props/OlEncode.lean` | P C Q |
|  |  | `Ol.C37_input` | `Props/OlEncode.lean` | P C Q |
|  |  | `Ol.C37_grows` | `Props/OlEncode.lean` | P Q |
|  |  | `Ol.C37_spells` | `Props/OlEncode.lean` | P Q |
|  |  | `Ol.C37_utf8` | `Props/OlEncode.lean` | P C Q |
|  |  | `Ol.C37_cut_violated` | `Props/OlEncode.lean` | P C Q |
| C38 | partial | `Ol.C38_total` | `Props/OlConvert.lean` | P C Q |
|  |  | `Ol.C38_partial` | `Props/OlConvert.lean` | P C Q |
| C39 | partial | `Ol.C39_lookup` | `Props/OlLookup.lean` | P C Q |
|  |  | `Ol.C39_lookup_partial` | `Props/OlLookup.lean` | P C Q |
|  |  | `Ol.C39_limit_partial` | `Props/OlLookup.lean` | P C Q |
|  |  | `Ol.C39_strings_partial` | `Props/OlLookup.lean` | P C Q |
|  |  | `Ol.C39_depth_violated` | `Props/OlLookup.lean` | P C Q |
|  |  | `Ol.C39_flags_violated` | `Props/OlLookup.lean` | P C Q |
| C40 | partial | `Ol.C40_partial` | `Props/OlWalkGraph.lean` | P C Q |
|  |  | `Ol.C40_violated` | `Props/OlWalkDemo.lean` | P C Q |
|  |  | `Ol.transitionsFrom_ok` | `Props/OlWalk.lean` | P C Q |
| C41 | partial | `Ol.C41_partial` | `Props/OlLoopsGraph.lean` | P C Q |
|  |  | `Ol.C41_tables_partial` | `Props/OlLoops.lean` | P C Q |
|  |  | `Ol.C41_endless_violated` | `Props/OlLoopsDemo.lean` | P C Q |
|  |  | `Ol.C41_flags_violated` | `Props/OlLoopsDemo.lean` | P C Q |
|  |  | `Ol.C41_unknown_violated` | `Props/OlLoopsDemo.lean` | P C Q |
| C42 | partial | `Ol.C42_graph_partial` | `Props/OlSpellGraph.lean` | P C Q |
|  |  | `Ol.C42_check_partial` | `Props/OlSpellMain.lean` | P C Q |
|  |  | `Ol.C42_correct_partial` | `Props/OlSpellMain.lean` | P C Q |
|  |  | `Ol.C42_check_violated` | `Props/OlSpellDemo.lean` | P C Q |
|  |  | `Ol.C42_correct_violated` | `Props/OlSpellDemo.lean` | P C Q |
|  |  | `Ol.C42_other_violated` | `Props/OlSpellDemo.lean` | P C Q |
| C43 | partial | `Ol.C43_partial` | `Props/OlWalkGraph.lean` | P C Q |
|  |  | `Ol.C43_violated` | `Props/OlWalkDemo.lean` | P C Q |
|  |  | `Ol.extractPaths_ok` | `Props/OlExtract.lean` | P C Q |
| C44 | proved | `Stream.C44_roundtrip` | `Props/Stream.lean` | P C Q |
|  |  | `Stream.C44_refused_write` | `Props/Stream.lean` | P C Q |
|  |  | `Stream.C44_accepted` | `Props/Stream.lean` | P C Q |
|  |  | `Stream.C44_truncated` | `Props/Stream.lean` | P C Q |
| C45 | partial | `Stream.C45_partial` | `Props/Stream.lean` | P C Q |
|  |  | `Stream.C45_violated` | `Props/Stream.lean` | P C Q |
|  |  | `Stream.C45_stream_violated` | `Props/Stream.lean` | P C Q |
| C46 | partial | `Stream.C46_new` | `Props/Stream.lean` | P C Q |
|  |  | `Stream.C46_old_partial` | `Props/Stream.lean` | P C Q |
|  |  | `Stream.C46_old_violated` | `Props/Stream.lean` | P C Q |
|  |  | `Stream.C46_unrecognised_partial` | `Props/Stream.lean` | P C Q |
|  |  | `Stream.C46_unrecognised_violated` | `Props/Stream.lean` | P C Q |
| C47 | proved | `Med.C47` | `Props/Med.lean` | P C Q |
| C48 | partial | `Escapes.C48_buffer` | `Props/Escapes.lean` | P C Q |
|  |  | `Escapes.C48_strip` | `Props/Escapes.lean` | P C Q |
|  |  | `Escapes.C48_strip_total` | `Props/Escapes.lean` | P C Q |
|  |  | `Escapes.C48_roundtrip_partial` | `Props/Escapes.lean` | P C Q |
|  |  | `Escapes.C48_placeholder_violated` | `Props/Escapes.lean` | P C Q |
| C49 | partial | `Escapes.C49_partial` | `Props/Escapes.lean` | P C Q |
|  |  | `Escapes.C49_empty` | `Props/Escapes.lean` | P |
|  |  | `Escapes.C49_violated` | `Props/Escapes.lean` | P Q |
| C50 | partial | `Escapes.C50_add_buffer` | `Props/Escapes.lean` | P C Q |
|  |  | `Escapes.C50_strip_buffer` | `Props/Escapes.lean` | P Q |
|  |  | `Escapes.C50_partial` | `Props/Escapes.lean` | P C Q |
|  |  | `Escapes.C50_violated` | `Props/Escapes.lean` | P C Q |
| C51 | proved | `Utf8.C51_sizes` | `Props/Utf8.lean` | P Q |
|  |  | `Utf8.C51_split` | `Props/Utf8.lean` | P Q |
|  |  | `Utf8.C51_tokenizer` | `Props/Utf8.lean` | P C Q |
| C52 | proved | `Utf8.C52_int2utf8` | `Props/Utf8.lean` | P C Q |
|  |  | `Utf8.C52_codepointToUtf8` | `Props/Utf8.lean` | P Q |
|  |  | `Utf8.C52_codepoint_refused` | `Props/Utf8.lean` | P C Q |
|  |  | `Utf8.C52_roundtrip` | `Props/Utf8.lean` | P C Q |
| C53 | proved | `Basic.C53_insertFreelyGraph` | `Props/GraphSplice.lean` | P C Q |
| C54 | proved | `Basic.C54_insertTransducer` | `Props/GraphSplice.lean` | P C Q |
| C55 | partial | `Prolog.C55_partial` | `Props/Prolog.lean` | P C Q |
|  |  | `Prolog.C55_language` | `Props/Prolog.lean` | P C Q |
|  |  | `Prolog.C55_stream_violated` | `Props/Prolog.lean` | P C Q |
| C56 | partial | `Escapes.C56_regex_partial` | `Props/Quoted.lean` | P C Q |
|  |  | `Escapes.C56_pattern_partial` | `Props/Quoted.lean` | P C Q |
|  |  | `Escapes.C56_complete` | `Props/Quoted.lean` | P |
|  |  | `Escapes.C56_buffer` | `Props/Quoted.lean` | P Q |
|  |  | `Escapes.C56_pattern_buffer` | `Props/Quoted.lean` | P Q |
|  |  | `Escapes.C56_hex_violated` | `Props/Quoted.lean` | P C Q |
|  |  | `Escapes.C56_octal_violated` | `Props/Quoted.lean` | P C Q |
|  |  | `Escapes.C56_codepoint_violated` | `Props/Quoted.lean` | P C Q |
| C57 | proved | `Escapes.C57_braces` | `Props/Quoted.lean` | P |
|  |  | `Escapes.C57_delimited` | `Props/Quoted.lean` | P |
| C58 | partial | `Escapes.C58_partial` | `Props/Quoted.lean` | P Q |
|  |  | `Escapes.C58_violated` | `Props/Quoted.lean` | P Q |
| C59 | proved | `Basic.C59` | `Props/Ambiguity.lean` | P C Q |
|  |  | `Basic.C59_lookup` | `Props/Ambiguity.lean` | P C Q |
|  |  | `Basic.C59_dead_end` | `Props/Ambiguity.lean` | P C Q |
| C60 | proved | `Basic.C60` | `Props/Ambiguity.lean` | P C Q |
| C61 | partial | `Ol.C61_partial` | `Props/OlConvertLookup.lean` | P C Q |
|  |  | `Ol.C61_unknown_violated` | `Props/OlConvertDemo.lean` | P C Q |
|  |  | `Ol.C61_output_violated` | `Props/OlConvertDemo.lean` | P C Q |
| C62 | partial | `Ol.C62_partial` | `Props/OlWalkGraph.lean` | P C Q |
|  |  | `Ol.C40_violated` | `Props/OlWalkDemo.lean` | P C Q |
|  |  | `Ol.toBasic_ok` | `Props/OlWalkBasic.lean` | P C Q |
| C63 | partial | `Pmatch.C63_locate_partial` | `Props/PmatchText.lean` | P C Q |
|  |  | `Pmatch.C63_locate_history_partial` | `Props/PmatchText.lean` | P C Q |
|  |  | `Pmatch.C63_match_partial` | `Props/PmatchText.lean` | P C Q |
|  |  | `Pmatch.C63_tags` | `Props/PmatchTags.lean` | P Q |
|  |  | `Pmatch.C63_single_violated` | `Props/PmatchDemo.lean` | P C Q |
|  |  | `Pmatch.C63_generic_violated` | `Props/PmatchDemo.lean` | P C Q |
|  |  | `Pmatch.C63_boundary_violated` | `Props/PmatchDemo.lean` | P C Q |
| C64 | partial | `Pmatch.C64_match_partial` | `Props/PmatchScan.lean` | P C Q |
|  |  | `Pmatch.C64_locate_partial` | `Props/PmatchScan.lean` | P C Q |
|  |  | `Pmatch.C64_weight_violated` | `Props/PmatchScanDemo.lean` | P C Q |
|  |  | `Pmatch.C64_limit_violated` | `Props/PmatchScanDemo.lean` | P C Q |
| C65 | partial | `Sfst.C65_copy` | `Props/SfstOps.lean` | P C Q |
|  |  | `Sfst.C65_level` | `Props/SfstOps.lean` | P Q |
|  |  | `Sfst.C65_replace_partial` | `Props/SfstOps.lean` | P Q |
|  |  | `Sfst.C65_union` | `Props/SfstOps.lean` | P Q |
|  |  | `Sfst.C65_concat` | `Props/SfstOps.lean` | P C Q |
|  |  | `Sfst.C65_star` | `Props/SfstStar.lean` | P C Q |
|  |  | `Sfst.C65_plus_optional` | `Props/SfstStar.lean` | P C Q |
|  |  | `Sfst.C65_times` | `Props/SfstStar.lean` | P C Q |
|  |  | `Sfst.C65_insert_partial` | `Props/SfstStar.lean` | P C Q |
|  |  | `Sfst.C65_reverse` | `Props/SfstDet.lean` | P C Q |
|  |  | `Sfst.C65_relations` | `Props/SfstCompose.lean` | P C Q |
|  |  | `Sfst.C65_insert_violated` | `Props/SfstDemo.lean` | P C Q |
|  |  | `Sfst.C65_replace_violated` | `Props/SfstDemo.lean` | P Q |
| C66 | proved | `Sfst.C66_determinise` | `Props/SfstDet.lean` | P C Q |
|  |  | `Sfst.C66_intersect` | `Props/SfstDet.lean` | P C Q |
| C67 | proved | `Sfst.C67_compose` | `Props/SfstCompose.lean` | P Q |
| C68 | proved | `Sfst.C68_minimise` | `Props/SfstMin.lean` | P C Q |
|  |  | `Sfst.C68_rev_det` | `Props/SfstMin.lean` | P C Q |
|  |  | `Sfst.C68_smallest` | `Props/SfstMin.lean` | P C Q |
| C69 | proved | `Sfst.C69_equal` | `Props/SfstCmp.lean` | P C Q |
|  |  | `Sfst.C69_complement` | `Props/SfstCmp.lean` | P C Q |
|  |  | `Sfst.C69_subtract` | `Props/SfstCmp.lean` | P C Q |
| C70 | partial | `Sfst.C70_add_path_partial` | `Props/SfstPath.lean` | P Q |
|  |  | `Sfst.C70_paths` | `Props/SfstPath.lean` | P Q |
|  |  | `Sfst.C70_add_path_violated` | `Props/SfstPath.lean` | P Q |
|  |  | `Sfst.C70_marks_violated` | `Props/SfstPath.lean` | P C Q |
| C71 | partial | `Lexc.C71_compile_partial` | `Props/Lexc.lean` | P C Q |
|  |  | `Lexc.C71_reset_partial` | `Props/Lexc.lean` | P C Q |
|  |  | `Lexc.C71_collected` | `Props/Lexc.lean` | P C Q |
|  |  | `Lexc.C71_errors` | `Props/LexcErrors.lean` | P C Q |
|  |  | `Lexc.reference_ok` | `Props/LexcBackend.lean` | P C Q |
|  |  | `Lexc.C71_weights_violated` | `Props/LexcDemo.lean` | P C Q |
|  |  | `Lexc.C71_keys_violated` | `Props/LexcDemo.lean` | P C Q |
|  |  | `Lexc.C71_first_violated` | `Props/LexcDemo.lean` | P C Q |
|  |  | `Lexc.C71_default_violated` | `Props/LexcDemo.lean` | P C Q |
|  |  | `Lexc.C71_at_violated` | `Props/LexcDemo.lean` | P C Q |
|  |  | `Lexc.C71_dollar_violated` | `Props/LexcDemo.lean` | P C Q |
| C72 | partial | `Trans.C72_sound` | `Props/TransducerCompose.lean` | P C Q |
|  |  | `Trans.C72_partial` | `Props/TransducerCompose.lean` | P C Q |
|  |  | `Trans.C72_violated` | `Props/TransducerPriority.lean` | P C Q |
|  |  | `Trans.reference_ok` | `Props/LexcBackend.lean` | P C Q |
| C73 | partial | `Trans.C73_disjunct` | `Props/TransducerOps.lean` | P C Q |
|  |  | `Trans.C73_concatenate` | `Props/TransducerOps.lean` | P C Q |
|  |  | `Trans.C73_intersect` | `Props/TransducerOps.lean` | P C Q |
|  |  | `Trans.C73_subtract` | `Props/TransducerOps.lean` | P C Q |
|  |  | `Trans.C73_compare` | `Props/TransducerOps.lean` | P C Q |
|  |  | `Trans.C73_star` | `Props/TransducerOps.lean` | P C Q |
|  |  | `Trans.C73_invert` | `Props/TransducerOps.lean` | P C Q |
|  |  | `Trans.C73_inputProject` | `Props/TransducerOps.lean` | P C Q |
|  |  | `Trans.C73_outputProject` | `Props/TransducerOps.lean` | P C Q |
|  |  | `Trans.C73_negate` | `Props/TransducerRepeat.lean` | P C Q |
|  |  | `Trans.C73_negate_throws` | `Props/TransducerRepeat.lean` | P C Q |
|  |  | `Trans.C73_negate_twice` | `Props/TransducerRepeat.lean` | P C Q |
|  |  | `Trans.C73_repeatN` | `Props/TransducerRepeat.lean` | P C Q |
|  |  | `Trans.C73_optionalize` | `Props/TransducerRepeat.lean` | P C Q |
|  |  | `Trans.C73_repeatLe` | `Props/TransducerRepeat.lean` | P C Q |
|  |  | `Trans.C73_repeatNPlus` | `Props/TransducerRepeat.lean` | P C Q |
|  |  | `Trans.C73_repeatNToK_partial` | `Props/TransducerRepeat.lean` | P C Q |
|  |  | `Trans.C73_repeatNToK_violated` | `Props/TransducerRepeat.lean` | P C Q |
| C74 | partial | `Trans.C74_partial` | `Props/TransducerPriority.lean` | P C Q |
|  |  | `Trans.C74_lenient_partial` | `Props/TransducerPriority.lean` | P C Q |
|  |  | `Trans.C74_violated` | `Props/TransducerPriority.lean` | P C Q |
| C75 | partial | `Trans.C75_partial` | `Props/TransducerCross.lean` | P C Q |
|  |  | `Trans.C75_throws` | `Props/TransducerCross.lean` | P C Q |
|  |  | `Trans.C75_violated` | `Props/TransducerCross.lean` | P C Q |
| C76 | partial | `Trans.C76_if_partial` | `Props/TwoLevel.lean` | P C Q |
|  |  | `Trans.C76_only_if_partial` | `Props/TwoLevel.lean` | P C Q |
|  |  | `Trans.C76_iff_partial` | `Props/TwoLevel.lean` | P C Q |
|  |  | `Trans.C76_throws` | `Props/TwoLevel.lean` | P C Q |
|  |  | `Trans.C76_if_violated` | `Props/TwoLevel.lean` | P C Q |
|  |  | `Trans.C76_only_if_violated` | `Props/TwoLevel.lean` | P C Q |
| C77 | partial | `Trans.C77_rules` | `Props/Restriction.lean` | P C Q |
|  |  | `Trans.C77_throws` | `Props/Restriction.lean` | P C Q |
|  |  | `Trans.C77_mapping_partial` | `Props/Restriction.lean` | P C Q |
|  |  | `Trans.C77_mapping_violated` | `Props/Restriction.lean` | P C Q |
| C78 | partial | `Trans.C78_replace` | `Props/Replace.lean` | P C Q |
|  |  | `Trans.C78_left` | `Props/Replace.lean` | P C Q |
|  |  | `Trans.replace_pairs` | `Props/Replace.lean` | P C Q |
|  |  | `Trans.C78_total` | `Props/Replace.lean` | P C Q |
|  |  | `Trans.C78_total_rule` | `Props/Replace.lean` | P C Q |
|  |  | `Trans.C78_throws` | `Props/Replace.lean` | P C Q |
|  |  | `Trans.C78_total_violated` | `Props/Replace.lean` | P C Q |
| C79 | partial | `Trans.C79_shuffle_partial` | `Props/ShuffleProps.lean` | P C Q |
|  |  | `Trans.C79_throws` | `Props/ShuffleProps.lean` | P C Q |
|  |  | `Trans.C79_alphabet_violated` | `Props/ShuffleProps.lean` | P C Q |
|  |  | `Trans.C79_unknown_violated` | `Props/ShuffleProps.lean` | P C Q |
| C80 | partial | `Trans.C80_eliminateFlags_partial` | `Props/FlagElim.lean` | P C Q |
|  |  | `Trans.C80_eliminateFlag_partial` | `Props/FlagElim.lean` | P C Q |
|  |  | `Trans.C80_eliminateFlag_throws` | `Props/FlagElim.lean` | P C Q |
|  |  | `Trans.C80_required_violated` | `Props/FlagElim.lean` | P C Q |
|  |  | `Trans.C80_negative_violated` | `Props/FlagElim.lean` | P C Q |
|  |  | `Trans.C80_unrelated_violated` | `Props/FlagElim.lean` | P C Q |
|  |  | `Trans.C80_otherFeature_violated` | `Props/FlagElim.lean` | P C Q |
| C81 | partial | `Conv.C81_export` | `Props/Convert.lean` | P C Q |
|  |  | `Conv.C81_roundtrip` | `Props/Convert.lean` | P C Q |
|  |  | `Conv.C81_import_partial` | `Props/Convert.lean` | P C Q |
|  |  | `Conv.C81_refused` | `Props/Convert.lean` | P C Q |
|  |  | `Conv.C81_epsilonName_violated` | `Props/Convert.lean` | P C Q |
|  |  | `Conv.C81_outputTable_violated` | `Props/Convert.lean` | P C Q |
|  |  | `Conv.C81_gap_violated` | `Props/Convert.lean` | P C Q |
|  |  | `Conv.C81_empty_violated` | `Props/Convert.lean` | P C Q |
| C82 | partial | `Conv.C82_import` | `Props/ConvertLog.lean` | P C Q |
|  |  | `Conv.C82_refused` | `Props/ConvertLog.lean` | P C Q |
|  |  | `Conv.C82_export_partial` | `Props/ConvertLog.lean` | P C Q |
|  |  | `Conv.C82_export_flat` | `Props/ConvertLog.lean` | P C Q |
|  |  | `Conv.C82_export_violated` | `Props/ConvertLog.lean` | P C Q |
| C83 | partial | `Proc.C83_stream_partial` | `Props/ProcBuffer.lean` | P Q |
|  |  | `Proc.C83_whole_violated` | `Props/ProcBuffer.lean` | P Q |
|  |  | `Proc.C83_look_violated` | `Props/ProcBuffer.lean` | P C Q |
| C84 | partial | `Proc.C84_tokens_partial` | `Props/ProcToken.lean` | P C Q |
|  |  | `Proc.C84_plain_text` | `Props/ProcToken.lean` | P C Q |
|  |  | `Proc.C84_backslash_violated` | `Props/ProcToken.lean` | P C Q |
|  |  | `Proc.C84_less_violated` | `Props/ProcToken.lean` | P C Q |
|  |  | `Proc.C84_cut_violated` | `Props/ProcToken.lean` | P C Q |
|  |  | `Proc.C84_epsilon_violated` | `Props/ProcToken.lean` | P C Q |
|  |  | `Proc.C84_bytes_violated` | `Props/ProcToken.lean` | P C Q |
| C85 | partial | `Proc.C85_divides_partial` | `Props/ProcAnalysis.lean` | P C Q |
|  |  | `Proc.C85_nothing_lost` | `Props/ProcAnalysis.lean` | P |
|  |  | `Proc.C85_one_division` | `Props/ProcAnalysis.lean` | P C Q |
|  |  | `Proc.C85_short_partial` | `Props/ProcAnalysis.lean` | P C Q |
|  |  | `Proc.C85_lost_violated` | `Props/ProcAnalysis.lean` | P C Q |
|  |  | `Proc.C85_forever_violated` | `Props/ProcAnalysis.lean` | P C Q |
|  |  | `Proc.C85_end_violated` | `Props/ProcAnalysis.lean` | P C Q |
|  |  | `Proc.C85_cut_violated` | `Props/ProcAnalysis.lean` | P C Q |
|  |  | `Proc.C85_long_violated` | `Props/ProcAnalysis.lean` | – |
|  |  | `Proc.C85_round_violated` | `Props/ProcAnalysis.lean` | P C Q |
| C86 | partial | `Sfst.C86_roundtrip` | `Props/SfstFile.lean` | P C Q |
|  |  | `Sfst.C86_marks` | `Props/SfstFile.lean` | P C Q |
|  |  | `Sfst.C86_refused` | `Props/SfstFile.lean` | P Q |
|  |  | `Sfst.C86_stale_violated` | `Props/SfstFile.lean` | P Q |
|  |  | `Sfst.C86_pairs_violated` | `Props/SfstFile.lean` | P C Q |
|  |  | `Sfst.C86_long_violated` | `Props/SfstFile.lean` | P Q |
| C87 | partial | `Sfst.C87_import` | `Props/SfstBasic.lean` | P C Q |
|  |  | `Sfst.C87_cyclic` | `Props/SfstBasic.lean` | P Q |
|  |  | `Sfst.C87_history_partial` | `Props/SfstBasic.lean` | P C Q |
|  |  | `Sfst.C87_export` | `Props/SfstBasic.lean` | P C Q |
|  |  | `Sfst.C87_roundtrip` | `Props/SfstBasic.lean` | P C Q |
|  |  | `Sfst.C87_refused` | `Props/SfstBasic.lean` | P C Q |
|  |  | `Sfst.C87_cyclic_violated` | `Props/SfstBasicDemo.lean` | P C Q |
|  |  | `Sfst.C87_ten_thousand_violated` | `Props/SfstBasicDemo.lean` | P C Q |
|  |  | `Sfst.C87_alphabet_violated` | `Props/SfstBasicDemo.lean` | P C Q |
| C88 | partial | `Extract.C88_found` | `Props/Extract.lean` | P C Q |
|  |  | `Extract.C88_limit_partial` | `Props/Extract.lean` | P C Q |
|  |  | `Extract.C88_reaches` | `Props/Extract.lean` | P C Q |
|  |  | `Extract.C88_ends` | `Props/Extract.lean` | P C Q |
|  |  | `Extract.C88_refused` | `Props/Extract.lean` | P |
|  |  | `Extract.C88_accepts` | `Props/ExtractDemo.lean` | P C Q |
|  |  | `Extract.C88_limit_violated` | `Props/ExtractDemo.lean` | P C Q |
|  |  | `Extract.C88_log_violated` | `Props/ExtractDemo.lean` | P C Q |
|  |  | `Extract.C88_endless_violated` | `Props/ExtractDemo.lean` | P C Q |
| C89 | partial | `Twolc.C89_once_partial` | `Props/TwolcRules.lean` | P C Q |
|  |  | `Twolc.C89_rules_partial` | `Props/TwolcRules.lean` | P C Q |
|  |  | `Twolc.C89_unequal` | `Props/TwolcRules.lean` | P C Q |
|  |  | `Twolc.C89_novalues_violated` | `Props/TwolcRules.lean` | P C Q |
|  |  | `Twolc.C89_mixed_violated` | `Props/TwolcVarsDemo.lean` | P C Q |
|  |  | `Twolc.C89_undefined_violated` | `Props/TwolcVarsDemo.lean` | P C Q |
| C90 | partial | `TwolcRule.C90_grammar_partial` | `Props/TwolcMeaning.lean` | P C Q |
|  |  | `TwolcRule.C90_resolved_partial` | `Props/TwolcMeaning.lean` | P C Q |
|  |  | `TwolcRule.C90_specific_partial` | `Props/TwolcMeaning.lean` | P C Q |
|  |  | `TwolcRule.C90_order_violated` | `Props/TwolcOrder.lean` | P C Q |
|  |  | `TwolcRule.C90_same_pair_violated` | `Props/TwolcOrder.lean` | P C Q |
| C91 | partial | `Tools.C91_head` | `Props/ToolArchives.lean` | P Q |
|  |  | `Tools.C91_head_default` | `Props/ToolArchives.lean` | P C Q |
|  |  | `Tools.C91_head_but_partial` | `Props/ToolArchives.lean` | P C Q |
|  |  | `Tools.C91_head_endless_violated` | `Props/ToolArchives.lean` | P Q |
|  |  | `Tools.C91_tail` | `Props/ToolArchives.lean` | P C Q |
|  |  | `Tools.C91_tail_from` | `Props/ToolArchives.lean` | P Q |
|  |  | `Tools.C91_tail_default_violated` | `Props/ToolArchives.lean` | P C Q |
|  |  | `Tools.C91_number` | `Props/ToolArchives.lean` | P Q |
|  |  | `Tools.C91_split` | `Props/ToolArchives.lean` | P C Q |
|  |  | `Tools.C91_pairs_partial` | `Props/ToolPairs.lean` | P C Q |
|  |  | `Tools.C91_compare_partial` | `Props/ToolPairs.lean` | P C Q |
|  |  | `Tools.C91_compose_partial` | `Props/ToolPairs.lean` | P C Q |
|  |  | `Tools.C91_compose_violated` | `Props/ToolPairs.lean` | P C Q |
|  |  | `Tools.C91_constant_violated` | `Props/ToolConstant.lean` | P C Q |
| C92 | partial | `FlagHarm.C92_rename` | `Props/FlagHarmonize.lean` | P C Q |
|  |  | `FlagHarm.C92_rename_meaning` | `Props/FlagHarmonize.lean` | P C Q |
|  |  | `FlagHarm.C92_concatenation` | `Props/FlagHarmonize.lean` | P C Q |
|  |  | `FlagHarm.C92_conjunction` | `Props/FlagConjunct.lean` | P C Q |
|  |  | `FlagHarm.C92_subtract_violated` | `Props/FlagHarmonizeDemo.lean` | P C Q |
|  |  | `FlagHarm.C92_alphabet_violated` | `Props/FlagHarmonizeDemo.lean` | P C Q |
| C93 | partial | `Reweight.C93_reweight` | `Props/Reweight.lean` | P C Q |
|  |  | `Reweight.C93_stream` | `Props/ReweightRules.lean` | P C Q |
|  |  | `Reweight.C93_refused` | `Props/ReweightRules.lean` | P C Q |
|  |  | `Reweight.C93_rules_partial` | `Props/ReweightRules.lean` | P C Q |
|  |  | `Reweight.C93_rules_violated` | `Props/ReweightRules.lean` | P C Q |
|  |  | `Reweight.C93_negative_violated` | `Props/ReweightRules.lean` | P C Q |
|  |  | `Reweight.C93_freed_violated` | `Props/ReweightRules.lean` | P C Q |
|  |  | `Reweight.C93_alphabet_violated` | `Props/ReweightRules.lean` | P C Q |
| C94 | partial | `Xfst.C94_turn` | `Props/XfstStack.lean` | P |
|  |  | `Xfst.C94_rotate_partial` | `Props/XfstStack.lean` | P |
|  |  | `Xfst.C94_rotate_violated` | `Props/XfstStack.lean` | P Q |
|  |  | `Xfst.C94_save_load` | `Props/XfstStack.lean` | P |
|  |  | `Xfst.C94_names_partial` | `Props/XfstStack.lean` | P C Q |
|  |  | `Xfst.C94_names_violated` | `Props/XfstStackDemo.lean` | P C Q |
|  |  | `Xfst.C94_unknown_violated` | `Props/XfstStackDemo.lean` | P C Q |
|  |  | `Xfst.C94_define` | `Props/XfstStack.lean` | P C Q |
|  |  | `Xfst.C94_undefine` | `Props/XfstStack.lean` | P C Q |
|  |  | `Xfst.C94_definitions` | `Props/XfstStack.lean` | P C Q |
|  |  | `Xfst.C94_write_definition_partial` | `Props/XfstStackDemo.lean` | P C Q |
|  |  | `Xfst.C94_write_definition_violated` | `Props/XfstStackDemo.lean` | P Q |
|  |  | `Xfst.C94_operations` | `Props/XfstStack.lean` | P C Q |
|  |  | `Xfst.C94_iterate_partial` | `Props/XfstStack.lean` | P C Q |
|  |  | `Xfst.C94_union_violated` | `Props/XfstStackDemo.lean` | P |
|  |  | `Xfst.C94_lost_violated` | `Props/XfstStack.lean` | P C Q |
|  |  | `Xfst.C94_tests_partial` | `Props/XfstStack.lean` | P C Q |
|  |  | `Xfst.C94_tests_violated` | `Props/XfstStackDemo.lean` | P Q |
| C95 | partial | `PairTest.C95_exit_partial` | `Props/PairTest.lean` | P C Q |
|  |  | `PairTest.C95_one` | `Props/PairTest.lean` | P C Q |
|  |  | `PairTest.C95_names_partial` | `Props/PairTest.lean` | P C Q |
|  |  | `PairTest.C95_xerox_partial` | `Props/PairTest.lean` | P C Q |
|  |  | `PairTest.C95_symbols_violated` | `Props/PairTestDemo.lean` | P C Q |
|  |  | `PairTest.C95_nondeterministic_violated` | `Props/PairTestDemo.lean` | P C Q |
| C96 | partial | `KillPaths.C96_kill` | `Props/KillPaths.lean` | P C Q |
|  |  | `KillPaths.C96_stream_partial` | `Props/KillPaths.lean` | P C Q |
|  |  | `KillPaths.C96_identity_violated` | `Props/KillPathsDemo.lean` | P C Q |
|  |  | `KillPaths.C96_both_violated` | `Props/KillPaths.lean` | P C Q |
|  |  | `KillPaths.C96_freed_violated` | `Props/KillPaths.lean` | P C Q |
| C97 | partial | `Expand.C97_single` | `Props/ExpandEquiv.lean` | P C Q |
|  |  | `Expand.C97_file_partial` | `Props/ExpandEquiv.lean` | P C Q |
|  |  | `Expand.C97_acx_partial` | `Props/ExpandEquiv.lean` | P C Q |
|  |  | `Expand.C97_keeps` | `Props/ExpandEquiv.lean` | P C Q |
|  |  | `Expand.C97_options` | `Props/ExpandEquiv.lean` | P C Q |
|  |  | `Expand.C97_empty` | `Props/ExpandEquiv.lean` | P C Q |
|  |  | `Expand.C97_level_partial` | `Props/ExpandEquiv.lean` | P C Q |
|  |  | `Expand.C97_archive_violated` | `Props/ExpandEquiv.lean` | P C Q |
|  |  | `Expand.C97_acx_violated` | `Props/ExpandEquiv.lean` | P C Q |
|  |  | `Expand.C97_epsilon_violated` | `Props/ExpandEquiv.lean` | P C Q |
|  |  | `Expand.C97_level_violated` | `Props/ExpandEquiv.lean` | P C Q |
| C98 | partial | `Subst.C98_label` | `Props/ToolSubstitute.lean` | P C Q |
|  |  | `Subst.C98_options` | `Props/ToolSubstitute.lean` | P C Q |
|  |  | `Subst.C98_empty_option` | `Props/ToolSubstitute.lean` | P C Q |
|  |  | `Subst.C98_inOrder_partial` | `Props/ToolSubstitute.lean` | P C Q |
|  |  | `Subst.C98_file_partial` | `Props/ToolSubstitute.lean` | P C Q |
|  |  | `Subst.C98_wrong_line` | `Props/ToolSubstitute.lean` | P C Q |
|  |  | `Subst.C98_never_violated` | `Props/ToolSubstitute.lean` | P C Q |
|  |  | `Subst.C98_mixed_violated` | `Props/ToolSubstitute.lean` | P C Q |
|  |  | `Subst.C98_archive_violated` | `Props/ToolSubstitute.lean` | P C Q |
|  |  | `Subst.C98_zero_violated` | `Props/ToolSubstitute.lean` | P C Q |
| C99 | partial | `Repeat.C99_repeat_partial` | `Props/ToolRepeat.lean` | P Q |
|  |  | `Repeat.C99_not_a_number` | `Props/ToolRepeat.lean` | P |
|  |  | `Repeat.C99_negative_from` | `Props/ToolRepeat.lean` | P Q |
|  |  | `Repeat.C99_infinity_to_number` | `Props/ToolRepeat.lean` | P Q |
|  |  | `Repeat.C99_to_infinity_violated` | `Props/ToolRepeat.lean` | P Q |
|  |  | `Repeat.C99_from_infinity_violated` | `Props/ToolRepeat.lean` | P |
|  |  | `Repeat.C99_minus_infinity_violated` | `Props/ToolRepeat.lean` | P Q |
|  |  | `Repeat.C99_large_violated` | `Props/ToolRepeat.lean` | P Q |
|  |  | `Repeat.C99_negative_violated` | `Props/ToolRepeat.lean` | P Q |
|  |  | `Repeat.C99_nan_violated` | `Props/ToolRepeat.lean` | – |
| C100 | partial | `Summarize.C100_counts` | `Props/Summarize.lean` | P C Q |
|  |  | `Summarize.C100_answers` | `Props/Summarize.lean` | P C Q |
|  |  | `Summarize.C100_extremes` | `Props/Summarize.lean` | P C Q |
|  |  | `Summarize.C100_different` | `Props/Summarize.lean` | P C Q |
|  |  | `Summarize.C100_symbols` | `Props/Summarize.lean` | P C Q |
|  |  | `Summarize.C100_pairs` | `Props/Summarize.lean` | P C Q |
|  |  | `Summarize.C100_cyclic_partial` | `Props/Summarize.lean` | P C Q |
|  |  | `Summarize.C100_cyclic_violated` | `Props/Summarize.lean` | P C Q |
| C101 | partial | `Info.C101_version_partial` | `Props/ToolInfo.lean` | P C Q |
|  |  | `Info.C101_wrong` | `Props/ToolInfo.lean` | P C Q |
|  |  | `Info.C101_feature_partial` | `Props/ToolInfo.lean` | P C Q |
|  |  | `Info.C101_max_violated` | `Props/ToolInfo.lean` | P C Q |
|  |  | `Info.C101_feature_violated` | `Props/ToolInfo.lean` | P C Q |
|  |  | `Info.C101_great_number_violated` | `Props/ToolInfo.lean` | P C Q |
|  |  | `Info.C101_empty_violated` | `Props/ToolInfo.lean` | P C Q |
| C102 | partial | `EditMeta.C102_add_partial` | `Props/EditMetadata.lean` | P C Q |
|  |  | `EditMeta.C102_print_all` | `Props/EditMetadata.lean` | P C Q |
|  |  | `EditMeta.C102_no_equals` | `Props/EditMetadata.lean` | P C Q |
|  |  | `EditMeta.C102_encoding` | `Props/EditMetadata.lean` | P C Q |
|  |  | `EditMeta.C102_print_violated` | `Props/EditMetadata.lean` | P C Q |
|  |  | `EditMeta.C102_add_print_violated` | `Props/EditMetadata.lean` | P C Q |
|  |  | `EditMeta.C102_order_violated` | `Props/EditMetadata.lean` | P C Q |
|  |  | `EditMeta.C102_output_violated` | `Props/EditMetadata.lean` | P C Q |
|  |  | `EditMeta.C102_truncate_violated` | `Props/EditMetadata.lean` | P C Q |
| C103 | partial | `CheckAlpha.C103_exit_partial` | `Props/CheckAlpha.lean` | P C Q |
|  |  | `CheckAlpha.C103_listed` | `Props/CheckAlpha.lean` | P Q |
|  |  | `CheckAlpha.C103_superset_violated` | `Props/CheckAlpha.lean` | P C Q |
|  |  | `CheckAlpha.C103_length_violated` | `Props/CheckAlpha.lean` | P |
| C104 | proved | `Traverse.C104_followed` | `Props/Traverse.lean` | P C Q |
|  |  | `Traverse.C104_screen` | `Props/Traverse.lean` | P C Q |
|  |  | `Traverse.C104_never_lost` | `Props/Traverse.lean` | P C Q |
| C105 | partial | `StripHeader.C105_strip_partial` | `Props/StripHeader.lean` | P C Q |
|  |  | `StripHeader.C105_strip_exact_partial` | `Props/StripHeader.lean` | P C Q |
|  |  | `StripHeader.C105_every_file` | `Props/StripHeader.lean` | P C Q |
|  |  | `StripHeader.C105_end_violated` | `Props/StripHeader.lean` | P C Q |
|  |  | `StripHeader.C105_written_violated` | `Props/StripHeader.lean` | P C Q |
| C106 | partial | `ToolName.C106_name_partial` | `Props/ToolName.lean` | P Q |
|  |  | `ToolName.C106_truncate_partial` | `Props/ToolName.lean` | P Q |
|  |  | `ToolName.C106_print` | `Props/ToolName.lean` | P Q |
|  |  | `ToolName.C106_truncate_violated` | `Props/ToolName.lean` | P |
| C107 | proved | `AffixGuess.C107_prefix_paths` | `Props/AffixGuess.lean` | P C Q |
