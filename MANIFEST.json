{
 "claims": [
  {
   "property": "C01",
   "status": "proved",
   "theorems": [
    "Hfst.Flags.C01_isDiacritic_iff",
    "Hfst.Flags.C01_parts",
    "Hfst.Flags.C01_respell"
   ],
   "note": ""
  },
  {
   "property": "C02",
   "status": "proved",
   "theorems": [
    "Hfst.Flags.C02_answer",
    "Hfst.Flags.C02_independent",
    "Hfst.Flags.C02_frame",
    "Hfst.Flags.C02_lastSet"
   ],
   "note": "Operations as a table can hold them (value numbers 1..32767; only R, D, C without value)."
  },
  {
   "property": "C03",
   "status": "partial",
   "theorems": [
    "Hfst.Flags.C03_engines_agree_partial",
    "Hfst.Flags.C03_violated"
   ],
   "note": "Holds for all tables with at most 32767 values and no flag with an empty value such as @P.F.@; for those the shipped engines disagree (C03_violated)."
  },
  {
   "property": "C04",
   "status": "partial",
   "theorems": [
    "Hfst.Flags.C04_violated",
    "Hfst.Flags.C04_never_false_violated",
    "Hfst.Flags.C04_findDiacritic_never_violated",
    "Hfst.Flags.C04_accepts_valid_partial"
   ],
   "note": "The shipped check never answers false; only the direction valid => true holds."
  },
  {
   "property": "C05",
   "status": "proved",
   "theorems": [
    "Hfst.Flags.C05_removeFlags",
    "Hfst.Flags.C05_removeFlagsPairs",
    "Hfst.Flags.C05_removeFlagsPath"
   ],
   "note": ""
  },
  {
   "property": "C06",
   "status": "partial",
   "theorems": [
    "Hfst.Tok.C06_tokenize_split",
    "Hfst.Tok.C06_tokenize_graphemes",
    "Hfst.Tok.C06_nul_violated",
    "Hfst.Tok.C06_byte255_violated"
   ],
   "note": "Holds for all symbols and texts in UTF-8 (and all byte strings without bytes 0 and 255 when the registered symbols are free of them); ICU's grapheme length is a parameter. Registering a symbol with byte 255, or text with NUL, breaks it (violated theorems)."
  },
  {
   "property": "C07",
   "status": "proved",
   "theorems": [
    "Hfst.Tok.C07_longest"
   ],
   "note": "For registered symbols without bytes 0 and 255 (see C06 for those bytes)."
  },
  {
   "property": "C08",
   "status": "proved",
   "theorems": [
    "Hfst.Tok.C08_pairUp",
    "Hfst.Tok.C08_unpad"
   ],
   "note": ""
  },
  {
   "property": "C09",
   "status": "partial",
   "theorems": [
    "Hfst.Tok.C09_kept",
    "Hfst.Tok.C09_violated",
    "Hfst.Tok.C09_aligned_partial"
   ],
   "note": "All symbols are kept and flags occur on both sides; 'nothing is added' is false when flags do not meet each other (C09_violated)."
  },
  {
   "property": "C10",
   "status": "proved",
   "theorems": [
    "Hfst.Tok.C10_split_join",
    "Hfst.Tok.C10_form"
   ],
   "note": ""
  },
  {
   "property": "C11",
   "status": "partial",
   "theorems": [
    "Hfst.Att.C11_partial",
    "Hfst.Att.C11_violated"
   ],
   "note": "Exact for every symbol in which no piece looks like an escape code; false for symbols such as TAB 0 TAB and '@_SPACE_ ' (C11_violated)."
  },
  {
   "property": "C12",
   "status": "partial",
   "theorems": [
    "Hfst.Att.C12_partial",
    "Hfst.Att.C12_language",
    "Hfst.Att.C12_violated",
    "Hfst.Att.C12_stream_violated",
    "Hfst.Att.C12_stream_language",
    "Hfst.Att.C12_number_violated"
   ],
   "note": "Reading from a FILE gives the same transducer; states that no transition or final weight mentions are lost, reading from an istream always gives the empty transducer, and the numeric variant loses final weights."
  },
  {
   "property": "C13",
   "status": "partial",
   "theorems": [
    "Hfst.Prolog.C13",
    "Hfst.Prolog.C13_arc",
    "Hfst.Prolog.C13_arc_violated"
   ],
   "note": "C13 gives the exact result for every symbol (only %0, %? and identity change); on transitions symbols ending in a backslash are refused."
  },
  {
   "property": "C14",
   "status": "partial",
   "theorems": [
    "Hfst.PairString.C14_groups",
    "Hfst.PairString.C14_pairs_partial",
    "Hfst.PairString.C14_colon",
    "Hfst.PairString.C14_unescape",
    "Hfst.PairString.C14_stringPair_partial",
    "Hfst.PairString.C14_stringPair_identity_partial",
    "Hfst.PairString.C14_stringPair_refused",
    "Hfst.PairString.C14_spaces",
    "Hfst.PairString.C14_spaces_total",
    "Hfst.PairString.C14_escaped_epsilon_violated",
    "Hfst.PairString.C14_empty_symbol_violated",
    "Hfst.PairString.C14_backslash_violated",
    "Hfst.PairString.C14_tab_violated",
    "Hfst.PairString.C14_refusal_violated"
   ],
   "note": "Exact for all sequences of tokens spelled as documented; five kinds of tokens are treated differently (violated theorems)."
  },
  {
   "property": "C15",
   "status": "partial",
   "theorems": [
    "Hfst.Basic.C15_states",
    "Hfst.Basic.C15_finalMap",
    "Hfst.Basic.C15_alphabet_partial",
    "Hfst.Basic.C15_violated",
    "Hfst.Basic.C15_used_violated"
   ],
   "note": "States, targets and final weights: proved for all histories of 27 public edits. Alphabet: false for some edits (violated theorems), proved for all histories of the remaining ones."
  },
  {
   "property": "C16",
   "status": "proved",
   "theorems": [
    "Hfst.Basic.C16_removeTransition"
   ],
   "note": ""
  },
  {
   "property": "C17",
   "status": "partial",
   "theorems": [
    "Hfst.Basic.C17_violated",
    "Hfst.Basic.C17_partial",
    "Hfst.Basic.C17_keeps_others"
   ],
   "note": "False when two neighbouring transitions carry the pair; exact otherwise."
  },
  {
   "property": "C18",
   "status": "partial",
   "theorems": [
    "Hfst.Basic.C18_violated",
    "Hfst.Basic.C18_partial"
   ],
   "note": "False when both states are final; exact otherwise."
  },
  {
   "property": "C19",
   "status": "proved",
   "theorems": [
    "Hfst.Basic.C19_substitute",
    "Hfst.Basic.C19_substituteMap",
    "Hfst.Basic.C19_substitutePairMap",
    "Hfst.Basic.C19_substitutePairSet",
    "Hfst.Basic.C19_substituteFunc"
   ],
   "note": ""
  },
  {
   "property": "C20",
   "status": "proved",
   "theorems": [
    "Hfst.Basic.C20_disjunct",
    "Hfst.Basic.C20_history"
   ],
   "note": ""
  },
  {
   "property": "C21",
   "status": "proved",
   "theorems": [
    "Hfst.Basic.C21_refuses",
    "Hfst.Basic.C21_total",
    "Hfst.Basic.C21_keeps",
    "Hfst.Basic.C21_language"
   ],
   "note": ""
  },
  {
   "property": "C22",
   "status": "proved",
   "theorems": [
    "Hfst.Basic.C22_insertFreely"
   ],
   "note": ""
  },
  {
   "property": "C23",
   "status": "partial",
   "theorems": [
    "Hfst.Basic.C23_violated",
    "Hfst.Basic.C23_defined_iff",
    "Hfst.Basic.C23_substituteGraph_partial",
    "Hfst.Basic.C23_substituteGraphs",
    "Hfst.Basic.C23_oneSided"
   ],
   "note": "Exact whenever the call is defined; substitute(pair, graph) is undefined when a state has two matching transitions. Substitution of several symbols without harmonization: proved."
  },
  {
   "property": "C24",
   "status": "partial",
   "theorems": [
    "Hfst.Basic.C24_exact",
    "Hfst.Basic.C24_partial",
    "Hfst.Basic.C24_unreachable_violated"
   ],
   "note": "The exact answer is proved for every transducer; it differs from the claim only where a cycle cannot be reached from the start."
  },
  {
   "property": "C25",
   "status": "partial",
   "theorems": [
    "Hfst.Basic.C25_partial",
    "Hfst.Basic.C25_limit",
    "Hfst.Basic.C25_flag_input_violated"
   ],
   "note": "When flags are obeyed the input must not contain flags; otherwise flags that the input provides are not checked."
  },
  {
   "property": "C26",
   "status": "partial",
   "theorems": [
    "Hfst.Basic.C26_partial",
    "Hfst.Basic.C26_negative_weight_violated"
   ],
   "note": "With a weight limit, weights must not be negative; the input consists of ordinary symbols."
  },
  {
   "property": "C27",
   "status": "proved",
   "theorems": [
    "Hfst.Basic.C27"
   ],
   "note": ""
  },
  {
   "property": "C28",
   "status": "partial",
   "theorems": [
    "Hfst.Basic.C28_partial",
    "Hfst.Basic.C28_sound",
    "Hfst.Basic.C28_total",
    "Hfst.Basic.C28_order_violated",
    "Hfst.Basic.C28_start_violated"
   ],
   "note": "Soundness and termination hold for all well-formed transducers. Exactness is proved when both are deterministic, greater symbols lead to greater state numbers and not both start states are final. Without the second condition matches are lost (C28_order_violated); with two final start states the weight is the minimum and not the sum (C28_start_violated)."
  },
  {
   "property": "C29",
   "status": "proved",
   "theorems": [
    "Hfst.Basic.C29",
    "Hfst.Basic.C29_sizes",
    "Hfst.Basic.C29_cyclic"
   ],
   "note": "Exact for acyclic transducers; with a reachable cycle the computation never ends (C29_cyclic)."
  },
  {
   "property": "C30",
   "status": "partial",
   "theorems": [
    "Hfst.Basic.C30_partial",
    "Hfst.Basic.C30_refused",
    "Hfst.Basic.C30_specials_violated"
   ],
   "note": "Proved for alphabets that contain the special symbols and transitions with identity on both sides or none. Identity on the input side only is refused when a symbol is missing; if epsilon was removed from an alphabet the meaning changes (C30_specials_violated)."
  },
  {
   "property": "C31",
   "status": "proved",
   "theorems": [
    "Hfst.Symbols.C31_number",
    "Hfst.Symbols.C31_stable",
    "Hfst.Symbols.C31_injective",
    "Hfst.Symbols.C31_specials",
    "Hfst.Symbols.C31_refused",
    "Hfst.Symbols.C31_vector",
    "Hfst.Symbols.C31_reverse"
   ],
   "note": "Numbers are not limited to 32 bits; the failed assertion for the empty symbol counts as a refusal."
  },
  {
   "property": "C32",
   "status": "proved",
   "theorems": [
    "Hfst.Compose.C32"
   ],
   "note": "For any number of rules, paired in any way; for one rule determinism is not needed. C33_nondeterministic_violated shows that it is needed for pairs."
  },
  {
   "property": "C33",
   "status": "partial",
   "theorems": [
    "Hfst.Compose.C33_partial",
    "Hfst.Compose.C33_flags_violated",
    "Hfst.Compose.C33_nondeterministic_violated",
    "Hfst.Compose.C33_identities_violated"
   ],
   "note": "Proved, with termination, for lexicons without identity on the input side and rules with at most one identity transition in each state; several rules must be deterministic and must not know the flags of the lexicon. Without these conditions it fails, as the three witnesses show."
  },
  {
   "property": "C34",
   "status": "proved",
   "theorems": [
    "Hfst.Ol.C34",
    "Hfst.Ol.C34_exact",
    "Hfst.Ol.C34_short",
    "Hfst.Ol.C34_property"
   ],
   "note": "For fields that fit in their 16 and 32 bits (the types of the fields)."
  },
  {
   "property": "C35",
   "status": "proved",
   "theorems": [
    "Hfst.Ol.C35",
    "Hfst.Ol.C35_unweighted",
    "Hfst.Ol.C35_exact",
    "Hfst.Ol.C35_truncated",
    "Hfst.Ol.C35_specials"
   ],
   "note": "For tables that agree with the header and have at most 2^31 entries (larger entry numbers address the other table)."
  },
  {
   "property": "C36",
   "status": "partial",
   "theorems": [
    "Hfst.Ol.C36_partial",
    "Hfst.Ol.C36_violated"
   ],
   "note": "The value is ignored: a property is always set to true."
  },
  {
   "property": "C37",
   "status": "proved",
   "theorems": [
    "Hfst.Ol.C37_longest",
    "Hfst.Ol.C37_input",
    "Hfst.Ol.C37_grows",
    "Hfst.Ol.C37_spells",
    "Hfst.Ol.C37_utf8",
    "Hfst.Ol.C37_cut_violated"
   ],
   "note": "For tables without empty symbols and at most 65535 symbols. An input that ends inside a character is undefined behaviour, as the witness shows."
  },
  {
   "property": "C38",
   "status": "partial",
   "theorems": [
    "Hfst.Ol.C38_total",
    "Hfst.Ol.C38_partial"
   ],
   "note": "Every order of the symbols and every packing threshold. Missing: transitions that read insertion symbols, and a default symbol that is in the alphabet but not read. The weight bits are an assumed encoding of the weights of the graph."
  },
  {
   "property": "C39",
   "status": "partial",
   "theorems": [
    "Hfst.Ol.C39_lookup",
    "Hfst.Ol.C39_lookup_partial",
    "Hfst.Ol.C39_limit_partial",
    "Hfst.Ol.C39_strings_partial",
    "Hfst.Ol.C39_depth_violated",
    "Hfst.Ol.C39_flags_violated"
   ],
   "note": "C39_lookup is exact for inputs whose runs stay below 5000 transitions. Without that bound longer runs are given up (C39_depth_violated). A cycle with flags can lose analyses (C39_flags_violated). The time limit is not modelled."
  },
  {
   "property": "C40",
   "status": "partial",
   "theorems": [
    "Hfst.Ol.C40_partial",
    "Hfst.Ol.C40_violated",
    "Hfst.Ol.transitionsFrom_ok"
   ],
   "note": "Holds (and the enumeration is exact) if every symbol except epsilon and flags is read by some transition; otherwise, so in nearly every converted transducer, the index table is read past its end (witness)."
  },
  {
   "property": "C41",
   "status": "partial",
   "theorems": [
    "Hfst.Ol.C41_partial",
    "Hfst.Ol.C41_tables_partial",
    "Hfst.Ol.C41_endless_violated",
    "Hfst.Ol.C41_flags_violated",
    "Hfst.Ol.C41_unknown_violated"
   ],
   "note": "Without flags, default symbols and unknown input symbols every answer is right, and no is always answered; the search may never end where the answer is yes, flags give wrong yes answers, and unknown symbols wrong no answers (witnesses)."
  },
  {
   "property": "C42",
   "status": "partial",
   "theorems": [
    "Hfst.Ol.C42_graph_partial",
    "Hfst.Ol.C42_check_partial",
    "Hfst.Ol.C42_correct_partial",
    "Hfst.Ol.C42_check_violated",
    "Hfst.Ol.C42_correct_violated",
    "Hfst.Ol.C42_other_violated"
   ],
   "note": "Both searches end and are exact for symbols that the transducers know, if no cycle reads nothing, epsilon and flags that are written have empty names, and the error model has no flags and writes only input symbols of the lexicon. Words with other characters are refused even if the lexicon accepts them, the name of epsilon is shown in suggestions, and writing the unknown symbol reads outside the tables (witnesses)."
  },
  {
   "property": "C43",
   "status": "partial",
   "theorems": [
    "Hfst.Ol.C43_partial",
    "Hfst.Ol.C43_violated",
    "Hfst.Ol.extractPaths_ok"
   ],
   "note": "Exactly the non-empty paths within the cycle limit that the flags allow are reported; the empty path is never reported (witness)."
  },
  {
   "property": "C44",
   "status": "proved",
   "theorems": [
    "Hfst.Stream.C44_roundtrip",
    "Hfst.Stream.C44_refused_write",
    "Hfst.Stream.C44_accepted",
    "Hfst.Stream.C44_truncated"
   ],
   "note": "For properties without NUL bytes (they could not be set otherwise); what was written before a refusal is the five bytes of the identifier."
  },
  {
   "property": "C45",
   "status": "partial",
   "theorems": [
    "Hfst.Stream.C45_partial",
    "Hfst.Stream.C45_violated",
    "Hfst.Stream.C45_stream_violated"
   ],
   "note": "Holds if every property seen earlier in the stream is given again; otherwise it is always taken over."
  },
  {
   "property": "C46",
   "status": "partial",
   "theorems": [
    "Hfst.Stream.C46_new",
    "Hfst.Stream.C46_old_partial",
    "Hfst.Stream.C46_old_violated",
    "Hfst.Stream.C46_unrecognised_partial",
    "Hfst.Stream.C46_unrecognised_violated"
   ],
   "note": "Exact for present headers; two old types report three bytes too few; a stream that ends within the identifier is left failed."
  },
  {
   "property": "C47",
   "status": "proved",
   "theorems": [
    "Hfst.Med.C47"
   ],
   "note": "For sides that do not contain the reserved symbol which the code itself uses as epsilon; costs are exact numbers (sides shorter than 2^30 symbols)."
  },
  {
   "property": "C48",
   "status": "partial",
   "theorems": [
    "Hfst.Escapes.C48_buffer",
    "Hfst.Escapes.C48_strip",
    "Hfst.Escapes.C48_strip_total",
    "Hfst.Escapes.C48_roundtrip_partial",
    "Hfst.Escapes.C48_placeholder_violated"
   ],
   "note": "Buffer and reading are proved for all texts. The round trip also fails where the placeholder arises from @PERCENT followed by a percent."
  },
  {
   "property": "C49",
   "status": "partial",
   "theorems": [
    "Hfst.Escapes.C49_partial",
    "Hfst.Escapes.C49_empty",
    "Hfst.Escapes.C49_violated"
   ],
   "note": "Holds unless the text is non-empty and all white space; then the code always reads before its buffer."
  },
  {
   "property": "C50",
   "status": "partial",
   "theorems": [
    "Hfst.Escapes.C50_add_buffer",
    "Hfst.Escapes.C50_strip_buffer",
    "Hfst.Escapes.C50_partial",
    "Hfst.Escapes.C50_violated"
   ],
   "note": "Buffers are proved for all texts; the round trip fails for symbols with a percent."
  },
  {
   "property": "C51",
   "status": "proved",
   "theorems": [
    "Hfst.Utf8.C51_sizes",
    "Hfst.Utf8.C51_split",
    "Hfst.Utf8.C51_tokenizer"
   ],
   "note": ""
  },
  {
   "property": "C52",
   "status": "proved",
   "theorems": [
    "Hfst.Utf8.C52_int2utf8",
    "Hfst.Utf8.C52_codepointToUtf8",
    "Hfst.Utf8.C52_codepoint_refused",
    "Hfst.Utf8.C52_roundtrip"
   ],
   "note": ""
  },
  {
   "property": "C53",
   "status": "proved",
   "theorems": [
    "Hfst.Basic.C53_insertFreelyGraph"
   ],
   "note": ""
  },
  {
   "property": "C54",
   "status": "proved",
   "theorems": [
    "Hfst.Basic.C54_insertTransducer"
   ],
   "note": ""
  },
  {
   "property": "C55",
   "status": "partial",
   "theorems": [
    "Hfst.Prolog.C55_partial",
    "Hfst.Prolog.C55_language",
    "Hfst.Prolog.C55_stream_violated"
   ],
   "note": "Reading from a FILE gives the same name, transitions, weights and alphabet within the reader's fixed buffers; reading from an istream always throws."
  },
  {
   "property": "C56",
   "status": "partial",
   "theorems": [
    "Hfst.Escapes.C56_regex_partial",
    "Hfst.Escapes.C56_pattern_partial",
    "Hfst.Escapes.C56_complete",
    "Hfst.Escapes.C56_buffer",
    "Hfst.Escapes.C56_pattern_buffer",
    "Hfst.Escapes.C56_hex_violated",
    "Hfst.Escapes.C56_octal_violated",
    "Hfst.Escapes.C56_codepoint_violated"
   ],
   "note": "Exact without numeric escapes; hexadecimal, octal and code point escapes are misread, lose text or leave the buffer."
  },
  {
   "property": "C57",
   "status": "proved",
   "theorems": [
    "Hfst.Escapes.C57_braces",
    "Hfst.Escapes.C57_delimited"
   ],
   "note": ""
  },
  {
   "property": "C58",
   "status": "partial",
   "theorems": [
    "Hfst.Escapes.C58_partial",
    "Hfst.Escapes.C58_violated"
   ],
   "note": "Exact for characters of one or two bytes; wrong for every longer one."
  },
  {
   "property": "C59",
   "status": "proved",
   "theorems": [
    "Hfst.Basic.C59",
    "Hfst.Basic.C59_lookup",
    "Hfst.Basic.C59_dead_end"
   ],
   "note": "For inputs of ordinary symbols. C59_dead_end shows that the report does not mean that there are many analyses."
  },
  {
   "property": "C60",
   "status": "proved",
   "theorems": [
    "Hfst.Basic.C60"
   ],
   "note": "Weights are exact numbers."
  },
  {
   "property": "C61",
   "status": "partial",
   "theorems": [
    "Hfst.Ol.C61_partial",
    "Hfst.Ol.C61_unknown_violated",
    "Hfst.Ol.C61_output_violated"
   ],
   "note": "Missing: runs of 5000 or more transitions, cycles with flags, the default symbol, insertion symbols, outputs that stand for what was read on other than identity transitions. If identity or unknown is in the alphabet but not read, the lookup of an unknown symbol reads outside the index table (C61_unknown_violated). A symbol that is only an output symbol is taken for unknown (C61_output_violated)."
  },
  {
   "property": "C62",
   "status": "partial",
   "theorems": [
    "Hfst.Ol.C62_partial",
    "Hfst.Ol.C40_violated",
    "Hfst.Ol.toBasic_ok"
   ],
   "note": "Holds if every symbol except epsilon and flags is read by some transition; otherwise undefined behaviour (C40_violated)."
  },
  {
   "property": "C63",
   "status": "partial",
   "theorems": [
    "Hfst.Pmatch.C63_locate_partial",
    "Hfst.Pmatch.C63_locate_history_partial",
    "Hfst.Pmatch.C63_match_partial",
    "Hfst.Pmatch.C63_tags",
    "Hfst.Pmatch.C63_single_violated",
    "Hfst.Pmatch.C63_generic_violated",
    "Hfst.Pmatch.C63_boundary_violated"
   ],
   "note": "Proved for every search that ends, with calls, captures, flags, lists, any weight limit and any recursion depth, if transitions that read a symbol standing for others also write one and names of special symbols do not occur in the text. Tags stand around the text of their pattern for every properly nested result tape. Missing: contexts, time limits, that result tapes are always nested. Text is lost with single-codepoint tokenization and with transitions from a class of symbols to a plain symbol, and places are wrong after a match of the boundary (witnesses)."
  },
  {
   "property": "C64",
   "status": "partial",
   "theorems": [
    "Hfst.Pmatch.C64_match_partial",
    "Hfst.Pmatch.C64_locate_partial",
    "Hfst.Pmatch.C64_weight_violated",
    "Hfst.Pmatch.C64_limit_violated"
   ],
   "note": "Proved for all sets of transducers calling each other (recursively, too), with weights, tags, lists and classes of symbols, for runs with fewer steps than the recursion depth allows. Missing: flags, captures, the default symbol, pass-through symbols, weight limits. Whether a match that reads nothing is written depends on memory that was never set, and weight limits do not count the weights of final states (witnesses)."
  },
  {
   "property": "C65",
   "status": "partial",
   "theorems": [
    "Hfst.Sfst.C65_copy",
    "Hfst.Sfst.C65_level",
    "Hfst.Sfst.C65_replace_partial",
    "Hfst.Sfst.C65_union",
    "Hfst.Sfst.C65_concat",
    "Hfst.Sfst.C65_star",
    "Hfst.Sfst.C65_plus_optional",
    "Hfst.Sfst.C65_times",
    "Hfst.Sfst.C65_insert_partial",
    "Hfst.Sfst.C65_reverse",
    "Hfst.Sfst.C65_relations",
    "Hfst.Sfst.C65_insert_violated",
    "Hfst.Sfst.C65_replace_violated"
   ],
   "note": "Proved with termination for all transducers. Inserting freely keeps the mark of a deterministic transducer, so that a later intersection is wrong (witness); replacing epsilon gives different results for transducers that accept the same (witness). Symbol tables are not modelled: both operands use the same codes. Each operation is a function of its operands, so that they stay as they are is not proved but read off the code."
  },
  {
   "property": "C66",
   "status": "proved",
   "theorems": [
    "Hfst.Sfst.C66_determinise",
    "Hfst.Sfst.C66_intersect"
   ],
   "note": "For all transducers whose marks are deserved; C65_insert_violated shows one that is not."
  },
  {
   "property": "C67",
   "status": "proved",
   "theorems": [
    "Hfst.Sfst.C67_compose"
   ],
   "note": "The codes of the two transducers agree, which harmonization sees to; the table of arcs by symbol is read straight from the nodes."
  },
  {
   "property": "C68",
   "status": "proved",
   "theorems": [
    "Hfst.Sfst.C68_minimise",
    "Hfst.Sfst.C68_rev_det",
    "Hfst.Sfst.C68_smallest"
   ],
   "note": "Sequences of symbol pairs; a transducer marked as minimised is only copied, so the marks have to be right (C65_insert_violated shows a way to a wrong mark)."
  },
  {
   "property": "C69",
   "status": "proved",
   "theorems": [
    "Hfst.Sfst.C69_equal",
    "Hfst.Sfst.C69_complement",
    "Hfst.Sfst.C69_subtract"
   ],
   "note": "Sequences of symbol pairs, not pairs of strings; the two transducers compared share no memory, which the library sees to by copying.  The complement of a transducer with an empty alphabet is an error, which subtract avoids."
  },
  {
   "property": "C70",
   "status": "partial",
   "theorems": [
    "Hfst.Sfst.C70_add_path_partial",
    "Hfst.Sfst.C70_paths",
    "Hfst.Sfst.C70_add_path_violated",
    "Hfst.Sfst.C70_marks_violated"
   ],
   "note": "Proved for transducers that are trees, so for every lexicon built from the empty transducer.  Refuted otherwise: where nodes are shared other sequences come in, and a minimised transducer keeps its mark, so that a later comparison answers wrongly."
  },
  {
   "property": "C71",
   "status": "partial",
   "theorems": [
    "Hfst.Lexc.C71_compile_partial",
    "Hfst.Lexc.C71_reset_partial",
    "Hfst.Lexc.C71_collected",
    "Hfst.Lexc.C71_errors",
    "Hfst.Lexc.reference_ok",
    "Hfst.Lexc.C71_weights_violated",
    "Hfst.Lexc.C71_keys_violated",
    "Hfst.Lexc.C71_first_violated",
    "Hfst.Lexc.C71_default_violated",
    "Hfst.Lexc.C71_at_violated",
    "Hfst.Lexc.C71_dollar_violated"
   ],
   "note": "Proved for every back-end whose optimization, star, concatenation, union and composition are right (reference_ok shows that there is one), every grapheme function and every file whose names and symbols stay clear of the markers of the compiler. Missing: flags between lexicons, alignment, definitions of regular expressions, unknown and identity symbols in regular expressions. Refuted: regular expressions with the same lexicon and continuation all get the smallest of their weights; names with underscores make regular expressions change places; a file without Root gives an empty transducer unless it is the first compilation of the process; a compiler made without arguments accepts nothing; symbols beginning with @_ or ending with $ make entries disappear."
  },
  {
   "property": "C72",
   "status": "partial",
   "theorems": [
    "Hfst.Trans.C72_sound",
    "Hfst.Trans.C72_partial",
    "Hfst.Trans.C72_violated",
    "Hfst.Trans.reference_ok"
   ],
   "note": "One half holds for all transducers, the other if unknown symbols are kept on the input side of the first or on the output side of the second transducer. If both change unknown symbols, the composition misses pairs of equal strings (witness). Proved for every back-end that composes literal symbols rightly (reference_ok shows that there is one)."
  },
  {
   "property": "C73",
   "status": "partial",
   "theorems": [
    "Hfst.Trans.C73_disjunct",
    "Hfst.Trans.C73_concatenate",
    "Hfst.Trans.C73_intersect",
    "Hfst.Trans.C73_subtract",
    "Hfst.Trans.C73_compare",
    "Hfst.Trans.C73_star",
    "Hfst.Trans.C73_invert",
    "Hfst.Trans.C73_inputProject",
    "Hfst.Trans.C73_outputProject",
    "Hfst.Trans.C73_negate",
    "Hfst.Trans.C73_negate_throws",
    "Hfst.Trans.C73_negate_twice",
    "Hfst.Trans.C73_repeatN",
    "Hfst.Trans.C73_optionalize",
    "Hfst.Trans.C73_repeatLe",
    "Hfst.Trans.C73_repeatNPlus",
    "Hfst.Trans.C73_repeatNToK_partial",
    "Hfst.Trans.C73_repeatNToK_violated"
   ],
   "note": "Proved for every back-end whose operations are right about literal symbols (reference_ok shows that there is one), with default settings, for operands with the same symbols of the form @_..._@. The complement treats flag diacritics of the automaton as symbols. repeat_n_to_k with k < n repeats up to 2^32 + k times instead of accepting nothing (witness)."
  },
  {
   "property": "C74",
   "status": "partial",
   "theorems": [
    "Hfst.Trans.C74_partial",
    "Hfst.Trans.C74_lenient_partial",
    "Hfst.Trans.C74_violated"
   ],
   "note": "Proved for input strings of ordinary symbols and of flag diacritics that the first transducer knows; for lenient composition under the conditions of C72. A string with a flag diacritic that only the second transducer knows is lost (witness)."
  },
  {
   "property": "C75",
   "status": "partial",
   "theorems": [
    "Hfst.Trans.C75_partial",
    "Hfst.Trans.C75_throws",
    "Hfst.Trans.C75_violated"
   ],
   "note": "Proved for every back-end whose operations are right about literal symbols, for strings of ordinary symbols other than the internal symbol @_MARK_@. Strings with flag diacritics are lost (witness): the unknown symbol that is paired with the mark does not stand for them."
  },
  {
   "property": "C76",
   "status": "partial",
   "theorems": [
    "Hfst.Trans.C76_if_partial",
    "Hfst.Trans.C76_only_if_partial",
    "Hfst.Trans.C76_iff_partial",
    "Hfst.Trans.C76_throws",
    "Hfst.Trans.C76_if_violated",
    "Hfst.Trans.C76_only_if_violated"
   ],
   "note": "Proved for every back-end whose operations are right about literal symbols, for alphabets and mappings of literal symbol pairs. Two cases are wrong (witnesses), because an empty set of symbol pairs becomes a transducer that accepts the empty string: two_level_only_if without mappings, and two_level_if when no pair of the alphabet has the input symbol of a mapping."
  },
  {
   "property": "C77",
   "status": "partial",
   "theorems": [
    "Hfst.Trans.C77_rules",
    "Hfst.Trans.C77_throws",
    "Hfst.Trans.C77_mapping_partial",
    "Hfst.Trans.C77_mapping_violated"
   ],
   "note": "C77_rules proves the acceptance claim in full for every back-end whose operations are right about literal symbols. The claim that the arguments are not changed holds for the three plain functions and fails for the surface and deep ones, which replace the mapping of the caller by a projection (C77_mapping_violated)."
  },
  {
   "property": "C78",
   "status": "partial",
   "theorems": [
    "Hfst.Trans.C78_replace",
    "Hfst.Trans.C78_left",
    "Hfst.Trans.replace_pairs",
    "Hfst.Trans.C78_total",
    "Hfst.Trans.C78_total_rule",
    "Hfst.Trans.C78_throws",
    "Hfst.Trans.C78_total_violated"
   ],
   "note": "Proved for every back-end whose operations are right about literal symbols and mappings whose special symbols are epsilon, unknown and identity; replace_pairs is the same for alphabets of arbitrary symbol pairs. The claim that no string is blocked fails when the mapping accepts the empty string: the rule then accepts nothing (C78_total_violated)."
  },
  {
   "property": "C79",
   "status": "partial",
   "theorems": [
    "Hfst.Trans.C79_shuffle_partial",
    "Hfst.Trans.C79_throws",
    "Hfst.Trans.C79_alphabet_violated",
    "Hfst.Trans.C79_unknown_violated"
   ],
   "note": "For every back-end whose operations are right about literal symbols: all interleavings are accepted with the added weights, and nothing else, if every known symbol of the string occurs in some accepted string of an argument. Strings with a symbol of the alphabet that is on no path are wrongly accepted (C79_alphabet_violated). A transition with two different symbols makes shuffle throw; a transition with the unknown symbol on both sides need not (C79_unknown_violated). Not covered: alphabets with symbols that begin with @1 or @2."
  },
  {
   "property": "C80",
   "status": "partial",
   "theorems": [
    "Hfst.Trans.C80_eliminateFlags_partial",
    "Hfst.Trans.C80_eliminateFlag_partial",
    "Hfst.Trans.C80_eliminateFlag_throws",
    "Hfst.Trans.C80_required_violated",
    "Hfst.Trans.C80_negative_violated",
    "Hfst.Trans.C80_unrelated_violated",
    "Hfst.Trans.C80_otherFeature_violated"
   ],
   "note": "For every back-end whose operations are right about literal symbols. Proved if every feature that an R flag asks for is set by some flag, no N flag has a value other than that of a U or D flag of its feature, and either no flag decides about another or every flag takes part in such a pair. Each of these conditions is needed: the four violated theorems give transducers for which the result accepts too much or nothing at all. Not covered: flags on one side of a pair only, pmatch symbols."
  },
  {
   "property": "C81",
   "status": "partial",
   "theorems": [
    "Hfst.Conv.C81_export",
    "Hfst.Conv.C81_roundtrip",
    "Hfst.Conv.C81_import_partial",
    "Hfst.Conv.C81_refused",
    "Hfst.Conv.C81_epsilonName_violated",
    "Hfst.Conv.C81_outputTable_violated",
    "Hfst.Conv.C81_gap_violated",
    "Hfst.Conv.C81_empty_violated"
   ],
   "note": "Export and round trip are proved for all transducers whose alphabet has their symbols. The import of a foreign transducer is proved if label 0 has the name of HFST's epsilon, all labels are in the symbol table for the input and the one for the output agrees with it; the violated theorems show that each of these is needed. Weights are integers without infinity, state numbers below 2^32."
  },
  {
   "property": "C82",
   "status": "partial",
   "theorems": [
    "Hfst.Conv.C82_import",
    "Hfst.Conv.C82_refused",
    "Hfst.Conv.C82_export_partial",
    "Hfst.Conv.C82_export_flat",
    "Hfst.Conv.C82_export_violated"
   ],
   "note": "Import is proved in full. Export is wrong: the variable for the source state is never changed, so all transitions leave the first state; what it gives is proved for all transducers, and it is right if only the first state has transitions."
  },
  {
   "property": "C83",
   "status": "partial",
   "theorems": [
    "Hfst.Proc.C83_stream_partial",
    "Hfst.Proc.C83_whole_violated",
    "Hfst.Proc.C83_look_violated"
   ],
   "note": "Proved for all sequences of calls that go back by less than the size of the buffer and look back no further than its start allows. Going back by exactly the size does nothing, and looking back right after the buffer has gone round reads before the array."
  },
  {
   "property": "C84",
   "status": "partial",
   "theorems": [
    "Hfst.Proc.C84_tokens_partial",
    "Hfst.Proc.C84_plain_text",
    "Hfst.Proc.C84_backslash_violated",
    "Hfst.Proc.C84_less_violated",
    "Hfst.Proc.C84_cut_violated",
    "Hfst.Proc.C84_epsilon_violated",
    "Hfst.Proc.C84_bytes_violated"
   ],
   "note": "Proved for all texts that have tokens in the sense of the specification, which leaves out what the violated theorems show: a backslash before a character that is not reserved, a symbol that starts with `<` and is no tag, a text that stops in the middle of a symbol, the name of epsilon in the text, NUL, byte 255 and a backslash at the end. Null flushing is not modelled."
  },
  {
   "property": "C85",
   "status": "partial",
   "theorems": [
    "Hfst.Proc.C85_divides_partial",
    "Hfst.Proc.C85_nothing_lost",
    "Hfst.Proc.C85_one_division",
    "Hfst.Proc.C85_short_partial",
    "Hfst.Proc.C85_lost_violated",
    "Hfst.Proc.C85_forever_violated",
    "Hfst.Proc.C85_end_violated",
    "Hfst.Proc.C85_cut_violated",
    "Hfst.Proc.C85_long_violated",
    "Hfst.Proc.C85_round_violated"
   ],
   "note": "Proved for texts that end with a character that no word has, without reserved characters, for transducers none of whose words starts with a character that is not alphabetic, as long as fewer tokens are followed than the buffer holds and no word ends where the buffer goes round. The violated theorems show what happens otherwise. The lookup is a parameter: any machine that reads tokens."
  },
  {
   "property": "C86",
   "status": "partial",
   "theorems": [
    "Hfst.Sfst.C86_roundtrip",
    "Hfst.Sfst.C86_marks",
    "Hfst.Sfst.C86_refused",
    "Hfst.Sfst.C86_stale_violated",
    "Hfst.Sfst.C86_pairs_violated",
    "Hfst.Sfst.C86_long_violated"
   ],
   "note": "Proved for all transducers within the limits of the format whose nodes were never numbered or have good numbers. A transducer that was changed in place after its states were counted is written with undefined numbers, 65536 label pairs are written as none, and a symbol of 100000 bytes is written but cannot be read. A file that ends inside the alphabet is an undefined outcome of the model."
  },
  {
   "property": "C87",
   "status": "partial",
   "theorems": [
    "Hfst.Sfst.C87_import",
    "Hfst.Sfst.C87_cyclic",
    "Hfst.Sfst.C87_history_partial",
    "Hfst.Sfst.C87_export",
    "Hfst.Sfst.C87_roundtrip",
    "Hfst.Sfst.C87_refused",
    "Hfst.Sfst.C87_cyclic_violated",
    "Hfst.Sfst.C87_ten_thousand_violated",
    "Hfst.Sfst.C87_alphabet_violated"
   ],
   "note": "Proved for all transducers and all sequences of fewer than 9999 calls, where a cyclic transducer is not asked if it is cyclic. After that question a cyclic transducer that was converted before loses states in the next conversion, after ten thousand walks the question is answered wrong, and symbols outside the alphabet become epsilon. Other walks that may stop early (is_automaton, comparison, infinite ambiguity) are not in the model."
  },
  {
   "property": "C88",
   "status": "partial",
   "theorems": [
    "Hfst.Extract.C88_found",
    "Hfst.Extract.C88_limit_partial",
    "Hfst.Extract.C88_reaches",
    "Hfst.Extract.C88_ends",
    "Hfst.Extract.C88_refused",
    "Hfst.Extract.C88_accepts",
    "Hfst.Extract.C88_limit_violated",
    "Hfst.Extract.C88_log_violated",
    "Hfst.Extract.C88_endless_violated"
   ],
   "note": "Proved for all transducers. The maximum can be exceeded by one, because the empty path is added after the search was stopped; with log weights the empty path is left out; and with a maximum and no number of cycles the search in a cyclic transducer may not end. The back-ends foma and XFSM are not in the model; the optimized format is in C43."
  },
  {
   "property": "C89",
   "status": "partial",
   "theorems": [
    "Hfst.Twolc.C89_once_partial",
    "Hfst.Twolc.C89_rules_partial",
    "Hfst.Twolc.C89_unequal",
    "Hfst.Twolc.C89_novalues_violated",
    "Hfst.Twolc.C89_mixed_violated",
    "Hfst.Twolc.C89_undefined_violated"
   ],
   "note": "Proved for all rules in which no variable is declared twice, every variable has a value, matched variables have lists of the same length and mixed variables can be given different positions. Without the last, the rule is written once with its variables not replaced, or the iterator reads behind the end of a vector; a variable without values makes the compiler throw an exception that nothing catches. A variable that is declared twice in one rule is not covered."
  },
  {
   "property": "C90",
   "status": "partial",
   "theorems": [
    "Hfst.TwolcRule.C90_grammar_partial",
    "Hfst.TwolcRule.C90_resolved_partial",
    "Hfst.TwolcRule.C90_specific_partial",
    "Hfst.TwolcRule.C90_order_violated",
    "Hfst.TwolcRule.C90_same_pair_violated"
   ],
   "note": "Proved for all grammars, given transducer operations that are right (Lib.Right; a library with this property is given): what the stored transducers accept together without resolution of left-arrow conflicts; with resolution and no conflict that is reported as unresolvable, that one rule governs each place; and that the last rule that is about a place governs it if later rules are apart from earlier ones or narrower. The order matters, contrary to the claim: a rule that comes between two others in size but after both makes a conflict unresolvable that is resolved in another order (C90_order_violated). Conflicts are reported between rules with the same center (C90_same_pair_violated). Not covered: diacritics, pairs that are not declared, centers with the input 0 or the word boundary when left-arrow conflicts are resolved."
  },
  {
   "property": "C91",
   "status": "partial",
   "theorems": [
    "Hfst.Tools.C91_head",
    "Hfst.Tools.C91_head_default",
    "Hfst.Tools.C91_head_but_partial",
    "Hfst.Tools.C91_head_endless_violated",
    "Hfst.Tools.C91_tail",
    "Hfst.Tools.C91_tail_from",
    "Hfst.Tools.C91_tail_default_violated",
    "Hfst.Tools.C91_number",
    "Hfst.Tools.C91_split",
    "Hfst.Tools.C91_pairs_partial",
    "Hfst.Tools.C91_compare_partial",
    "Hfst.Tools.C91_compose_partial",
    "Hfst.Tools.C91_compose_violated",
    "Hfst.Tools.C91_constant_violated"
   ],
   "note": "Proved for all archives and option texts: hfst-head, hfst-tail and hfst-split; for all operations that leave the second transducer as it is, or changed in a way later results cannot tell, the pairing, the errors and the exit codes. The code disagrees in four places: hfst-head -n -K never ends for K from 2^32 on (C91_head_endless_violated), hfst-tail without an option writes the first transducer, too (C91_tail_default_violated), hfst-compose with one transducer in the first input composes with the result before (C91_compose_violated), and hfst-concatenate -F changes the second transducer in every round (C91_constant_violated). Not covered: the choice of the output format, names, formulas and messages."
  },
  {
   "property": "C92",
   "status": "partial",
   "theorems": [
    "Hfst.FlagHarm.C92_rename",
    "Hfst.FlagHarm.C92_rename_meaning",
    "Hfst.FlagHarm.C92_concatenation",
    "Hfst.FlagHarm.C92_conjunction",
    "Hfst.FlagHarm.C92_subtract_violated",
    "Hfst.FlagHarm.C92_alphabet_violated"
   ],
   "note": "Proved for all transducers with flags on both sides of transitions and all symbols of the alphabet on transitions: renaming, concatenation and conjunction (the last for flags with values, since remove_illegal_flag_paths, whose behaviour is a hypothesis, recognises only those). The code disagrees in two places: with flags in both transducers subtraction does not remove what the second accepts, so that a transducer minus itself is not empty (C92_subtract_violated; the tool warns that the result may be incorrect), and renaming forgets the symbols that are in the alphabet only, so that an identity then also stands for them (C92_alphabet_violated)."
  },
  {
   "property": "C93",
   "status": "partial",
   "theorems": [
    "Hfst.Reweight.C93_reweight",
    "Hfst.Reweight.C93_stream",
    "Hfst.Reweight.C93_refused",
    "Hfst.Reweight.C93_rules_partial",
    "Hfst.Reweight.C93_rules_violated",
    "Hfst.Reweight.C93_negative_violated",
    "Hfst.Reweight.C93_freed_violated",
    "Hfst.Reweight.C93_alphabet_violated"
   ],
   "note": "Proved for all transducers and options: the paths and weights of the result, and which rule files are refused; for rule files with values of one kind: the rules are applied one after the other. The code disagrees in four places: a value of an earlier line of the file is used again with the later lines (C93_rules_violated), the default of the lower bound is 0 (C93_negative_violated), with -S and a file without rules the symbol is freed twice (C93_freed_violated), and the symbols that are in the alphabet only are lost (C93_alphabet_violated). Weights are exact integers in the model."
  },
  {
   "property": "C94",
   "status": "partial",
   "theorems": [
    "Hfst.Xfst.C94_turn",
    "Hfst.Xfst.C94_rotate_partial",
    "Hfst.Xfst.C94_rotate_violated",
    "Hfst.Xfst.C94_save_load",
    "Hfst.Xfst.C94_names_partial",
    "Hfst.Xfst.C94_names_violated",
    "Hfst.Xfst.C94_unknown_violated",
    "Hfst.Xfst.C94_define",
    "Hfst.Xfst.C94_undefine",
    "Hfst.Xfst.C94_definitions",
    "Hfst.Xfst.C94_write_definition_partial",
    "Hfst.Xfst.C94_write_definition_violated",
    "Hfst.Xfst.C94_operations",
    "Hfst.Xfst.C94_iterate_partial",
    "Hfst.Xfst.C94_union_violated",
    "Hfst.Xfst.C94_lost_violated",
    "Hfst.Xfst.C94_tests_partial",
    "Hfst.Xfst.C94_tests_violated"
   ],
   "note": "Proved for all histories of commands: turn, saving and loading the stack and the definitions, define and undefine, operations on one or two networks, and that both ways to use a name agree as long as nothing is loaded. The code disagrees in seven places: rotate reverses the stack (C94_rotate_violated), load defined does not tell the regular expressions (C94_names_violated, C94_unknown_violated), write definition writes no name (C94_write_definition_violated), union and shuffle take the whole stack (C94_union_violated), a composition that fails loses the top network (C94_lost_violated), and the tests look at the whole stack (C94_tests_violated). Operations, comparison and the compilation of expressions are parameters."
  },
  {
   "property": "C95",
   "status": "partial",
   "theorems": [
    "Hfst.PairTest.C95_exit_partial",
    "Hfst.PairTest.C95_one",
    "Hfst.PairTest.C95_names_partial",
    "Hfst.PairTest.C95_xerox_partial",
    "Hfst.PairTest.C95_symbols_violated",
    "Hfst.PairTest.C95_nondeterministic_violated"
   ],
   "note": "Proved for all grammars whose rules are deterministic and have one alphabet, as hfst-twolc writes them, and all files: the exit code in the three modes and the rules named. For other grammars the code disagrees: the known symbols are those on the transitions of the first rule only (C95_symbols_violated), and only the first of several transitions for a pair is followed (C95_nondeterministic_violated). The tokenizers are parameters; the positions printed for a rejected string are not modelled."
  },
  {
   "property": "C96",
   "status": "partial",
   "theorems": [
    "Hfst.KillPaths.C96_kill",
    "Hfst.KillPaths.C96_stream_partial",
    "Hfst.KillPaths.C96_identity_violated",
    "Hfst.KillPaths.C96_both_violated",
    "Hfst.KillPaths.C96_freed_violated"
   ],
   "note": "Proved for all transducers, symbols, files and archives: the accepting paths and weights of the result with -S or with -T. The code disagrees in three places: the symbol is not in the alphabet of the result, so that the identity symbol can stand for it and strings with it are accepted (C96_identity_violated); with -T the symbol of -S is ignored (C96_both_violated); and with -S and a file without symbols the memory of the symbol is freed twice (C96_freed_violated)."
  },
  {
   "property": "C97",
   "status": "partial",
   "theorems": [
    "Hfst.Expand.C97_single",
    "Hfst.Expand.C97_file_partial",
    "Hfst.Expand.C97_acx_partial",
    "Hfst.Expand.C97_keeps",
    "Hfst.Expand.C97_options",
    "Hfst.Expand.C97_empty",
    "Hfst.Expand.C97_level_partial",
    "Hfst.Expand.C97_archive_violated",
    "Hfst.Expand.C97_acx_violated",
    "Hfst.Expand.C97_epsilon_violated",
    "Hfst.Expand.C97_level_violated"
   ],
   "note": "Proved for all archives, files, symbols and levels, over any library whose functions mean what they should: the pairs of strings accepted after -f and -t, after -T for the first transducer, and after -a with libxml; which files and options make the tool fail. The code disagrees in four places: the file of -T is read to its end for the first transducer, and the others are not expanded (C97_archive_violated); without libxml, which the build files never look for, -a reports success and expands nothing (C97_acx_violated); @0@ is an ordinary symbol (C97_epsilon_violated); two of the names of levels in the help text are refused (C97_level_violated)."
  },
  {
   "property": "C98",
   "status": "partial",
   "theorems": [
    "Hfst.Subst.C98_label",
    "Hfst.Subst.C98_options",
    "Hfst.Subst.C98_empty_option",
    "Hfst.Subst.C98_inOrder_partial",
    "Hfst.Subst.C98_file_partial",
    "Hfst.Subst.C98_wrong_line",
    "Hfst.Subst.C98_never_violated",
    "Hfst.Subst.C98_mixed_violated",
    "Hfst.Subst.C98_archive_violated",
    "Hfst.Subst.C98_zero_violated"
   ],
   "note": "Proved for all labels, files and archives: which labels are pairs, which substitutions are made and in which order, which lines make the tool fail. What a substitution of the library does is the subject of other properties. The code disagrees in four places: a label that starts with a backslash and a colon makes the tool run for ever (C98_never_violated); a pair that is to be replaced with a symbol is taken as the name of a symbol (C98_mixed_violated); with -F only the first transducer of the archive is changed (C98_archive_violated); and @0@ is an ordinary symbol in a file (C98_zero_violated)."
  },
  {
   "property": "C99",
   "status": "partial",
   "theorems": [
    "Hfst.Repeat.C99_repeat_partial",
    "Hfst.Repeat.C99_not_a_number",
    "Hfst.Repeat.C99_negative_from",
    "Hfst.Repeat.C99_infinity_to_number",
    "Hfst.Repeat.C99_to_infinity_violated",
    "Hfst.Repeat.C99_from_infinity_violated",
    "Hfst.Repeat.C99_minus_infinity_violated",
    "Hfst.Repeat.C99_large_violated",
    "Hfst.Repeat.C99_negative_violated",
    "Hfst.Repeat.C99_nan_violated"
   ],
   "note": "Proved for all archives and all numbers up to 2147483647: how many repetitions are accepted, and when the tool fails. That the functions of the library repeat is assumed here (Lawful) and proved in C73 for the default implementation. The code disagrees in six places: -f 1 -t inf fails (C99_to_infinity_violated); -f inf accepts no repetition at all (C99_from_infinity_violated); -t -inf means any number of times (C99_minus_infinity_violated); numbers above 2147483647 are cut without a message (C99_large_violated); -t -1 means up to 4294967295 times (C99_negative_violated); and nan has undefined behaviour (C99_nan_violated)."
  },
  {
   "property": "C100",
   "status": "partial",
   "theorems": [
    "Hfst.Summarize.C100_counts",
    "Hfst.Summarize.C100_answers",
    "Hfst.Summarize.C100_extremes",
    "Hfst.Summarize.C100_different",
    "Hfst.Summarize.C100_symbols",
    "Hfst.Summarize.C100_pairs",
    "Hfst.Summarize.C100_cyclic_partial",
    "Hfst.Summarize.C100_cyclic_violated"
   ],
   "note": "Proved for all transducers: all numbers, the symbols, the symbol pairs, and the answers to acceptor, input and output deterministic. The answers to cyclic and cyclic at initial state are yes only for cyclic transducers, but cycles of more than one transition are not seen (C100_cyclic_violated). Not modelled: the names of the most ambiguous symbols, the averages, the first input symbols and the lines that depend on the type only; infinite ambiguity is C24."
  },
  {
   "property": "C101",
   "status": "partial",
   "theorems": [
    "Hfst.Info.C101_version_partial",
    "Hfst.Info.C101_wrong",
    "Hfst.Info.C101_feature_partial",
    "Hfst.Info.C101_max_violated",
    "Hfst.Info.C101_feature_violated",
    "Hfst.Info.C101_great_number_violated",
    "Hfst.Info.C101_empty_violated"
   ],
   "note": "Proved for all versions whose later numbers are below 10000 and for all builds: -a and -e, -f for SFST, ICU and unknown names, and which texts are refused. The code disagrees in four places: -m tests the same as -a (C101_max_violated); -f foma, xfsm and openfst succeed exactly if the library does not have them (C101_feature_violated); numbers of 10000 and more run into the number before (C101_great_number_violated); and empty numbers are read as 0 (C101_empty_violated)."
  },
  {
   "property": "C102",
   "status": "partial",
   "theorems": [
    "Hfst.EditMeta.C102_add_partial",
    "Hfst.EditMeta.C102_print_all",
    "Hfst.EditMeta.C102_no_equals",
    "Hfst.EditMeta.C102_encoding",
    "Hfst.EditMeta.C102_print_violated",
    "Hfst.EditMeta.C102_add_print_violated",
    "Hfst.EditMeta.C102_order_violated",
    "Hfst.EditMeta.C102_output_violated",
    "Hfst.EditMeta.C102_truncate_violated"
   ],
   "note": "Proved for all archives: what any number of options -a, with or without -t, writes; that all properties are printed; which arguments are refused. Which texts are UTF-8 is a parameter. The code disagrees in five places: -p NAME prints all properties (C102_print_violated); -p NAME after -a prints the old value and adds nothing, with undefined behaviour if there is no such property (C102_add_print_violated); -p after -a prints all and adds nothing, before -a it does nothing (C102_order_violated); printing with -o has undefined behaviour (C102_output_violated); -t can cut inside a character, which ends in an uncaught exception (C102_truncate_violated)."
  },
  {
   "property": "C103",
   "status": "partial",
   "theorems": [
    "Hfst.CheckAlpha.C103_exit_partial",
    "Hfst.CheckAlpha.C103_listed",
    "Hfst.CheckAlpha.C103_superset_violated",
    "Hfst.CheckAlpha.C103_length_violated"
   ],
   "note": "Proved for all archives of the same length: the exit code and the symbols listed. The code disagrees in two places: the line that a transducer has a superset of the symbols of the other is printed exactly if it has a subset of them (C103_superset_violated), and transducers that only one archive has are not looked at (C103_length_violated)."
  },
  {
   "property": "C104",
   "status": "proved",
   "theorems": [
    "Hfst.Traverse.C104_followed",
    "Hfst.Traverse.C104_screen",
    "Hfst.Traverse.C104_never_lost"
   ],
   "note": "For all transducers and all lists of lines: which lines are followed, which paths are shown and what is offered with each of them. How often a path that is reached over different states is shown, and the order of the paths, are not part of the statement. Only the first transducer of an archive is walked."
  },
  {
   "property": "C105",
   "status": "partial",
   "theorems": [
    "Hfst.StripHeader.C105_strip_partial",
    "Hfst.StripHeader.C105_strip_exact_partial",
    "Hfst.StripHeader.C105_every_file",
    "Hfst.StripHeader.C105_end_violated",
    "Hfst.StripHeader.C105_written_violated"
   ],
   "note": "Proved for all files: exactly the old headers (HFST3) are removed, and every other byte is kept unless the file ends with the beginning of a header. The code disagrees in two places: such an end is lost (C105_end_violated), and the headers that the library writes today, which begin with HFST and a NUL, are not removed (C105_written_violated)."
  },
  {
   "property": "C106",
   "status": "partial",
   "theorems": [
    "Hfst.ToolName.C106_name_partial",
    "Hfst.ToolName.C106_truncate_partial",
    "Hfst.ToolName.C106_print",
    "Hfst.ToolName.C106_truncate_violated"
   ],
   "note": "Proved for all archives: what -n, -t and -p do. Which texts are UTF-8 is a parameter. The code disagrees in one place: a name that is cut inside of a character makes the tool crash (C106_truncate_violated)."
  },
  {
   "property": "C107",
   "status": "proved",
   "theorems": [
    "Hfst.AffixGuess.C107_prefix_paths"
   ],
   "note": "For all transducers whose transitions lead to states, and all weights. The transitions added read identity symbols only, so symbols that the transducer knows are not guessed after a prefix. The direction suffix is not modelled."
  }
 ]
}