#!/usr/bin/env python3
"""Writes MANIFEST.json from the table below."""
import json, os
ROOT = os.path.dirname(os.path.dirname(os.path.abspath(__file__)))
F = "Hfst.Flags."
C = []
def claim(p, status, thms, note=""):
    C.append({"property": p, "status": status, "theorems": thms, "note": note})

claim("C01", "proved", [F+"C01_isDiacritic_iff", F+"C01_parts", F+"C01_respell"])
claim("C02", "proved", [F+"C02_answer", F+"C02_independent", F+"C02_frame", F+"C02_lastSet"],
      "Operations as a table can hold them (value numbers 1..32767; only R, D, C without value).")
claim("C03", "partial", [F+"C03_engines_agree_partial", F+"C03_violated"],
      "Holds for all tables with at most 32767 values and no flag with an empty value such as @P.F.@; for those the shipped engines disagree (C03_violated).")
claim("C04", "partial", [F+"C04_violated", F+"C04_never_false_violated", F+"C04_findDiacritic_never_violated", F+"C04_accepts_valid_partial"],
      "The shipped check never answers false; only the direction valid => true holds.")
claim("C05", "proved", [F+"C05_removeFlags", F+"C05_removeFlagsPairs", F+"C05_removeFlagsPath"])

T = "Hfst.Tok."
U = "Hfst.Utf8."
claim("C06", "partial", [T+"C06_tokenize_split", T+"C06_tokenize_graphemes", T+"C06_nul_violated", T+"C06_byte255_violated"],
      "Holds for all symbols and texts in UTF-8 (and all byte strings without bytes 0 and 255 when the registered symbols are free of them); ICU's grapheme length is a parameter. Registering a symbol with byte 255, or text with NUL, breaks it (violated theorems).")
claim("C07", "proved", [T+"C07_longest"], "For registered symbols without bytes 0 and 255 (see C06 for those bytes).")
claim("C08", "proved", [T+"C08_pairUp", T+"C08_unpad"])
claim("C09", "partial", [T+"C09_kept", T+"C09_violated", T+"C09_aligned_partial"],
      "All symbols are kept and flags occur on both sides; 'nothing is added' is false when flags do not meet each other (C09_violated).")
claim("C10", "proved", [T+"C10_split_join", T+"C10_form"])
claim("C51", "proved", [U+"C51_sizes", U+"C51_split", U+"C51_tokenizer"])
claim("C52", "proved", [U+"C52_int2utf8", U+"C52_codepointToUtf8", U+"C52_codepoint_refused", U+"C52_roundtrip"])

B = "Hfst.Basic."
claim("C15", "partial", [B+"C15_states", B+"C15_finalMap", B+"C15_alphabet_partial", B+"C15_violated", B+"C15_used_violated"],
      "States, targets and final weights: proved for all histories of 27 public edits. Alphabet: false for some edits (violated theorems), proved for all histories of the remaining ones.")
claim("C16", "proved", [B+"C16_removeTransition"])
claim("C17", "partial", [B+"C17_violated", B+"C17_partial", B+"C17_keeps_others"],
      "False when two neighbouring transitions carry the pair; exact otherwise.")
claim("C18", "partial", [B+"C18_violated", B+"C18_partial"], "False when both states are final; exact otherwise.")
claim("C19", "proved", [B+"C19_substitute", B+"C19_substituteMap", B+"C19_substitutePairMap", B+"C19_substitutePairSet", B+"C19_substituteFunc"])
claim("C20", "proved", [B+"C20_disjunct", B+"C20_history"])
claim("C21", "proved", [B+"C21_refuses", B+"C21_total", B+"C21_keeps", B+"C21_language"])
claim("C22", "proved", [B+"C22_insertFreely"])
claim("C23", "partial", [B+"C23_violated", B+"C23_defined_iff", B+"C23_substituteGraph_partial", B+"C23_substituteGraphs", B+"C23_oneSided"],
      "Exact whenever the call is defined; substitute(pair, graph) is undefined when a state has two matching transitions. Substitution of several symbols without harmonization: proved.")
claim("C53", "proved", [B+"C53_insertFreelyGraph"])
claim("C54", "proved", [B+"C54_insertTransducer"])

A = "Hfst.Att."
P = "Hfst.Prolog."
claim("C11", "partial", [A+"C11_partial", A+"C11_violated"],
      "Exact for every symbol in which no piece looks like an escape code; false for symbols such as TAB 0 TAB and '@_SPACE_ ' (C11_violated).")
claim("C12", "partial", [A+"C12_partial", A+"C12_language", A+"C12_violated", A+"C12_stream_violated", A+"C12_stream_language", A+"C12_number_violated"],
      "Reading from a FILE gives the same transducer; states that no transition or final weight mentions are lost, reading from an istream always gives the empty transducer, and the numeric variant loses final weights.")
claim("C13", "partial", [P+"C13", P+"C13_arc", P+"C13_arc_violated"],
      "C13 gives the exact result for every symbol (only %0, %? and identity change); on transitions symbols ending in a backslash are refused.")
claim("C55", "partial", [P+"C55_partial", P+"C55_language", P+"C55_stream_violated"],
      "Reading from a FILE gives the same name, transitions, weights and alphabet within the reader's fixed buffers; reading from an istream always throws.")

S = "Hfst.PairString."
claim("C14", "partial", [S+"C14_groups", S+"C14_pairs_partial", S+"C14_colon", S+"C14_unescape", S+"C14_stringPair_partial", S+"C14_stringPair_identity_partial", S+"C14_stringPair_refused", S+"C14_spaces", S+"C14_spaces_total", S+"C14_escaped_epsilon_violated", S+"C14_empty_symbol_violated", S+"C14_backslash_violated", S+"C14_tab_violated", S+"C14_refusal_violated"],
      "Exact for all sequences of tokens spelled as documented; five kinds of tokens are treated differently (violated theorems).")

E = "Hfst.Escapes."
claim("C47", "proved", ["Hfst.Med.C47"],
      "For sides that do not contain the reserved symbol which the code itself uses as epsilon; costs are exact numbers (sides shorter than 2^30 symbols).")
claim("C48", "partial", [E+"C48_buffer", E+"C48_strip", E+"C48_strip_total", E+"C48_roundtrip_partial", E+"C48_placeholder_violated"],
      "Buffer and reading are proved for all texts. The round trip also fails where the placeholder arises from @PERCENT followed by a percent.")
claim("C49", "partial", [E+"C49_partial", E+"C49_empty", E+"C49_violated"],
      "Holds unless the text is non-empty and all white space; then the code always reads before its buffer.")
claim("C50", "partial", [E+"C50_add_buffer", E+"C50_strip_buffer", E+"C50_partial", E+"C50_violated"],
      "Buffers are proved for all texts; the round trip fails for symbols with a percent.")
claim("C56", "partial", [E+"C56_regex_partial", E+"C56_pattern_partial", E+"C56_complete", E+"C56_buffer", E+"C56_pattern_buffer", E+"C56_hex_violated", E+"C56_octal_violated", E+"C56_codepoint_violated"],
      "Exact without numeric escapes; hexadecimal, octal and code point escapes are misread, lose text or leave the buffer.")
claim("C57", "proved", [E+"C57_braces", E+"C57_delimited"])
claim("C58", "partial", [E+"C58_partial", E+"C58_violated"],
      "Exact for characters of one or two bytes; wrong for every longer one.")

T = "Hfst.Stream."
claim("C44", "proved", [T+"C44_roundtrip", T+"C44_refused_write", T+"C44_accepted", T+"C44_truncated"],
      "For properties without NUL bytes (they could not be set otherwise); what was written before a refusal is the five bytes of the identifier.")
claim("C45", "partial", [T+"C45_partial", T+"C45_violated", T+"C45_stream_violated"],
      "Holds if every property seen earlier in the stream is given again; otherwise it is always taken over.")
claim("C46", "partial", [T+"C46_new", T+"C46_old_partial", T+"C46_old_violated", T+"C46_unrecognised_partial", T+"C46_unrecognised_violated"],
      "Exact for present headers; two old types report three bytes too few; a stream that ends within the identifier is left failed.")

B = "Hfst.Basic."
claim("C24", "partial", [B+"C24_exact", B+"C24_partial", B+"C24_unreachable_violated"],
      "The exact answer is proved for every transducer; it differs from the claim only where a cycle cannot be reached from the start.")
claim("C25", "partial", [B+"C25_partial", B+"C25_limit", B+"C25_flag_input_violated"],
      "When flags are obeyed the input must not contain flags; otherwise flags that the input provides are not checked.")
claim("C26", "partial", [B+"C26_partial", B+"C26_negative_weight_violated"],
      "With a weight limit, weights must not be negative; the input consists of ordinary symbols.")
claim("C27", "proved", [B+"C27"])
claim("C59", "proved", [B+"C59", B+"C59_lookup", B+"C59_dead_end"],
      "For inputs of ordinary symbols. C59_dead_end shows that the report does not mean that there are many analyses.")
claim("C60", "proved", [B+"C60"], "Weights are exact numbers.")

claim("C28", "partial", [B+"C28_partial", B+"C28_sound", B+"C28_total", B+"C28_order_violated", B+"C28_start_violated"],
      "Soundness and termination hold for all well-formed transducers. Exactness is proved when both are deterministic, greater symbols lead to greater state numbers and not both start states are final. Without the second condition matches are lost (C28_order_violated); with two final start states the weight is the minimum and not the sum (C28_start_violated).")
claim("C29", "proved", [B+"C29", B+"C29_sizes", B+"C29_cyclic"],
      "Exact for acyclic transducers; with a reachable cycle the computation never ends (C29_cyclic).")
claim("C30", "partial", [B+"C30_partial", B+"C30_refused", B+"C30_specials_violated"],
      "Proved for alphabets that contain the special symbols and transitions with identity on both sides or none. Identity on the input side only is refused when a symbol is missing; if epsilon was removed from an alphabet the meaning changes (C30_specials_violated).")
L = "Hfst.Ol."
claim("C34", "proved", [L+"C34", L+"C34_exact", L+"C34_short", L+"C34_property"],
      "For fields that fit in their 16 and 32 bits (the types of the fields).")
claim("C35", "proved", [L+"C35", L+"C35_unweighted", L+"C35_exact", L+"C35_truncated", L+"C35_specials"],
      "For tables that agree with the header and have at most 2^31 entries (larger entry numbers address the other table).")
claim("C36", "partial", [L+"C36_partial", L+"C36_violated"], "The value is ignored: a property is always set to true.")
claim("C37", "proved", [L+"C37_longest", L+"C37_input", L+"C37_grows", L+"C37_spells", L+"C37_utf8", L+"C37_cut_violated"],
      "For tables without empty symbols and at most 65535 symbols. An input that ends inside a character is undefined behaviour, as the witness shows.")
claim("C38", "partial", [L+"C38_total", L+"C38_partial"],
      "Every order of the symbols and every packing threshold. Missing: transitions that read insertion symbols, and a default symbol that is in the alphabet but not read. The weight bits are an assumed encoding of the weights of the graph.")
claim("C61", "partial", [L+"C61_partial", L+"C61_unknown_violated", L+"C61_output_violated"],
      "Missing: runs of 5000 or more transitions, cycles with flags, the default symbol, insertion symbols, outputs that stand for what was read on other than identity transitions. If identity or unknown is in the alphabet but not read, the lookup of an unknown symbol reads outside the index table (C61_unknown_violated). A symbol that is only an output symbol is taken for unknown (C61_output_violated).")
claim("C39", "partial", [L+"C39_lookup", L+"C39_lookup_partial", L+"C39_limit_partial", L+"C39_strings_partial", L+"C39_depth_violated", L+"C39_flags_violated"],
      "C39_lookup is exact for inputs whose runs stay below 5000 transitions. Without that bound longer runs are given up (C39_depth_violated). A cycle with flags can lose analyses (C39_flags_violated). The time limit is not modelled.")
Y = "Hfst.Symbols."
claim("C31", "proved", [Y+"C31_number", Y+"C31_stable", Y+"C31_injective", Y+"C31_specials", Y+"C31_refused", Y+"C31_vector", Y+"C31_reverse"],
      "Numbers are not limited to 32 bits; the failed assertion for the empty symbol counts as a refusal.")
O = "Hfst.Compose."
claim("C32", "proved", [O+"C32"],
      "For any number of rules, paired in any way; for one rule determinism is not needed. C33_nondeterministic_violated shows that it is needed for pairs.")
claim("C33", "partial", [O+"C33_partial", O+"C33_flags_violated", O+"C33_nondeterministic_violated", O+"C33_identities_violated"],
      "Proved, with termination, for lexicons without identity on the input side and rules with at most one identity transition in each state; several rules must be deterministic and must not know the flags of the lexicon. Without these conditions it fails, as the three witnesses show.")
claim("C40", "partial", [L+"C40_partial", L+"C40_violated", L+"transitionsFrom_ok"], "Holds (and the enumeration is exact) if every symbol except epsilon and flags is read by some transition; otherwise, so in nearly every converted transducer, the index table is read past its end (witness).")
claim("C41", "partial", [L+"C41_partial", L+"C41_tables_partial", L+"C41_endless_violated", L+"C41_flags_violated", L+"C41_unknown_violated"], "Without flags, default symbols and unknown input symbols every answer is right, and no is always answered; the search may never end where the answer is yes, flags give wrong yes answers, and unknown symbols wrong no answers (witnesses).")
claim("C42", "partial", [L+"C42_graph_partial", L+"C42_check_partial", L+"C42_correct_partial", L+"C42_check_violated", L+"C42_correct_violated", L+"C42_other_violated"], "Both searches end and are exact for symbols that the transducers know, if no cycle reads nothing, epsilon and flags that are written have empty names, and the error model has no flags and writes only input symbols of the lexicon. Words with other characters are refused even if the lexicon accepts them, the name of epsilon is shown in suggestions, and writing the unknown symbol reads outside the tables (witnesses).")
claim("C43", "partial", [L+"C43_partial", L+"C43_violated", L+"extractPaths_ok"], "Exactly the non-empty paths within the cycle limit that the flags allow are reported; the empty path is never reported (witness).")
claim("C62", "partial", [L+"C62_partial", L+"C40_violated", L+"toBasic_ok"], "Holds if every symbol except epsilon and flags is read by some transition; otherwise undefined behaviour (C40_violated).")
M = "Hfst.Pmatch."
claim("C63", "partial", [M+"C63_locate_partial", M+"C63_locate_history_partial", M+"C63_match_partial", M+"C63_tags", M+"C63_single_violated", M+"C63_generic_violated", M+"C63_boundary_violated"],
      "Proved for every search that ends, with calls, captures, flags, lists, any weight limit and any recursion depth, if transitions that read a symbol standing for others also write one and names of special symbols do not occur in the text. Tags stand around the text of their pattern for every properly nested result tape. Missing: contexts, time limits, that result tapes are always nested. Text is lost with single-codepoint tokenization and with transitions from a class of symbols to a plain symbol, and places are wrong after a match of the boundary (witnesses).")
claim("C64", "partial", [M+"C64_match_partial", M+"C64_locate_partial", M+"C64_weight_violated", M+"C64_limit_violated"],
      "Proved for all sets of transducers calling each other (recursively, too), with weights, tags, lists and classes of symbols, for runs with fewer steps than the recursion depth allows. Missing: flags, captures, the default symbol, pass-through symbols, weight limits. Whether a match that reads nothing is written depends on memory that was never set, and weight limits do not count the weights of final states (witnesses).")
S = "Hfst.Sfst."
claim("C65", "partial", [S+"C65_copy", S+"C65_level", S+"C65_replace_partial", S+"C65_union", S+"C65_concat", S+"C65_star", S+"C65_plus_optional", S+"C65_times", S+"C65_insert_partial", S+"C65_reverse", S+"C65_relations", S+"C65_insert_violated", S+"C65_replace_violated"],
      "Proved with termination for all transducers. Inserting freely keeps the mark of a deterministic transducer, so that a later intersection is wrong (witness); replacing epsilon gives different results for transducers that accept the same (witness). Symbol tables are not modelled: both operands use the same codes. Each operation is a function of its operands, so that they stay as they are is not proved but read off the code.")
claim("C66", "proved", [S+"C66_determinise", S+"C66_intersect"],
      "For all transducers whose marks are deserved; C65_insert_violated shows one that is not.")
claim("C67", "proved", [S+"C67_compose"], "The codes of the two transducers agree, which harmonization sees to; the table of arcs by symbol is read straight from the nodes.")
claim("C68", "proved", [S+"C68_minimise", S+"C68_rev_det", S+"C68_smallest"], "Sequences of symbol pairs; a transducer marked as minimised is only copied, so the marks have to be right (C65_insert_violated shows a way to a wrong mark).")
claim("C69", "proved", [S+"C69_equal", S+"C69_complement", S+"C69_subtract"], "Sequences of symbol pairs, not pairs of strings; the two transducers compared share no memory, which the library sees to by copying.  The complement of a transducer with an empty alphabet is an error, which subtract avoids.")
claim("C70", "partial", [S+"C70_add_path_partial", S+"C70_paths", S+"C70_add_path_violated", S+"C70_marks_violated"], "Proved for transducers that are trees, so for every lexicon built from the empty transducer.  Refuted otherwise: where nodes are shared other sequences come in, and a minimised transducer keeps its mark, so that a later comparison answers wrongly.")
X = "Hfst.Lexc."
claim("C71", "partial", [X+"C71_compile_partial", X+"C71_reset_partial", X+"C71_collected", X+"C71_errors", X+"reference_ok", X+"C71_weights_violated", X+"C71_keys_violated", X+"C71_first_violated", X+"C71_default_violated", X+"C71_at_violated", X+"C71_dollar_violated"],
      "Proved for every back-end whose optimization, star, concatenation, union and composition are right (reference_ok shows that there is one), every grapheme function and every file whose names and symbols stay clear of the markers of the compiler. Missing: flags between lexicons, alignment, definitions of regular expressions, unknown and identity symbols in regular expressions. Refuted: regular expressions with the same lexicon and continuation all get the smallest of their weights; names with underscores make regular expressions change places; a file without Root gives an empty transducer unless it is the first compilation of the process; a compiler made without arguments accepts nothing; symbols beginning with @_ or ending with $ make entries disappear.")
T = "Hfst.Trans."
claim("C72", "partial", [T+"C72_sound", T+"C72_partial", T+"C72_violated", T+"reference_ok"],
      "One half holds for all transducers, the other if unknown symbols are kept on the input side of the first or on the output side of the second transducer. If both change unknown symbols, the composition misses pairs of equal strings (witness). Proved for every back-end that composes literal symbols rightly (reference_ok shows that there is one).")
claim("C73", "partial", [T+"C73_disjunct", T+"C73_concatenate", T+"C73_intersect", T+"C73_subtract", T+"C73_compare", T+"C73_star", T+"C73_invert", T+"C73_inputProject", T+"C73_outputProject", T+"C73_negate", T+"C73_negate_throws", T+"C73_negate_twice", T+"C73_repeatN", T+"C73_optionalize", T+"C73_repeatLe", T+"C73_repeatNPlus", T+"C73_repeatNToK_partial", T+"C73_repeatNToK_violated"],
      "Proved for every back-end whose operations are right about literal symbols (reference_ok shows that there is one), with default settings, for operands with the same symbols of the form @_..._@. The complement treats flag diacritics of the automaton as symbols. repeat_n_to_k with k < n repeats up to 2^32 + k times instead of accepting nothing (witness).")
claim("C74", "partial", [T+"C74_partial", T+"C74_lenient_partial", T+"C74_violated"],
      "Proved for input strings of ordinary symbols and of flag diacritics that the first transducer knows; for lenient composition under the conditions of C72. A string with a flag diacritic that only the second transducer knows is lost (witness).")
claim("C75", "partial", [T+"C75_partial", T+"C75_throws", T+"C75_violated"],
      "Proved for every back-end whose operations are right about literal symbols, for strings of ordinary symbols other than the internal symbol @_MARK_@. Strings with flag diacritics are lost (witness): the unknown symbol that is paired with the mark does not stand for them.")
claim("C76", "partial", [T+"C76_if_partial", T+"C76_only_if_partial", T+"C76_iff_partial", T+"C76_throws", T+"C76_if_violated", T+"C76_only_if_violated"],
      "Proved for every back-end whose operations are right about literal symbols, for alphabets and mappings of literal symbol pairs. Two cases are wrong (witnesses), because an empty set of symbol pairs becomes a transducer that accepts the empty string: two_level_only_if without mappings, and two_level_if when no pair of the alphabet has the input symbol of a mapping.")
claim("C77", "partial", [T+"C77_rules", T+"C77_throws", T+"C77_mapping_partial", T+"C77_mapping_violated"],
      "C77_rules proves the acceptance claim in full for every back-end whose operations are right about literal symbols. The claim that the arguments are not changed holds for the three plain functions and fails for the surface and deep ones, which replace the mapping of the caller by a projection (C77_mapping_violated).")
claim("C78", "partial", [T+"C78_replace", T+"C78_left", T+"replace_pairs", T+"C78_total", T+"C78_total_rule", T+"C78_throws", T+"C78_total_violated"],
      "Proved for every back-end whose operations are right about literal symbols and mappings whose special symbols are epsilon, unknown and identity; replace_pairs is the same for alphabets of arbitrary symbol pairs. The claim that no string is blocked fails when the mapping accepts the empty string: the rule then accepts nothing (C78_total_violated).")
claim("C79", "partial", [T+"C79_shuffle_partial", T+"C79_throws", T+"C79_alphabet_violated", T+"C79_unknown_violated"],
      "For every back-end whose operations are right about literal symbols: all interleavings are accepted with the added weights, and nothing else, if every known symbol of the string occurs in some accepted string of an argument. Strings with a symbol of the alphabet that is on no path are wrongly accepted (C79_alphabet_violated). A transition with two different symbols makes shuffle throw; a transition with the unknown symbol on both sides need not (C79_unknown_violated). Not covered: alphabets with symbols that begin with @1 or @2.")
claim("C80", "partial", [T+"C80_eliminateFlags_partial", T+"C80_eliminateFlag_partial", T+"C80_eliminateFlag_throws", T+"C80_required_violated", T+"C80_negative_violated", T+"C80_unrelated_violated", T+"C80_otherFeature_violated"],
      "For every back-end whose operations are right about literal symbols. Proved if every feature that an R flag asks for is set by some flag, no N flag has a value other than that of a U or D flag of its feature, and either no flag decides about another or every flag takes part in such a pair. Each of these conditions is needed: the four violated theorems give transducers for which the result accepts too much or nothing at all. Not covered: flags on one side of a pair only, pmatch symbols.")
K = "Hfst.Conv."
claim("C81", "partial", [K+"C81_export", K+"C81_roundtrip", K+"C81_import_partial", K+"C81_refused", K+"C81_epsilonName_violated", K+"C81_outputTable_violated", K+"C81_gap_violated", K+"C81_empty_violated"],
      "Export and round trip are proved for all transducers whose alphabet has their symbols. The import of a foreign transducer is proved if label 0 has the name of HFST's epsilon, all labels are in the symbol table for the input and the one for the output agrees with it; the violated theorems show that each of these is needed. Weights are integers without infinity, state numbers below 2^32.")
claim("C82", "partial", [K+"C82_import", K+"C82_refused", K+"C82_export_partial", K+"C82_export_flat", K+"C82_export_violated"],
      "Import is proved in full. Export is wrong: the variable for the source state is never changed, so all transitions leave the first state; what it gives is proved for all transducers, and it is right if only the first state has transitions.")
H = "Hfst.Proc."
claim("C83", "partial", [H+"C83_stream_partial", H+"C83_whole_violated", H+"C83_look_violated"],
      "Proved for all sequences of calls that go back by less than the size of the buffer and look back no further than its start allows. Going back by exactly the size does nothing, and looking back right after the buffer has gone round reads before the array.")
claim("C84", "partial", [H+"C84_tokens_partial", H+"C84_plain_text", H+"C84_backslash_violated", H+"C84_less_violated", H+"C84_cut_violated", H+"C84_epsilon_violated", H+"C84_bytes_violated"],
      "Proved for all texts that have tokens in the sense of the specification, which leaves out what the violated theorems show: a backslash before a character that is not reserved, a symbol that starts with `<` and is no tag, a text that stops in the middle of a symbol, the name of epsilon in the text, NUL, byte 255 and a backslash at the end. Null flushing is not modelled.")
claim("C85", "partial", [H+"C85_divides_partial", H+"C85_nothing_lost", H+"C85_one_division", H+"C85_short_partial", H+"C85_lost_violated", H+"C85_forever_violated", H+"C85_end_violated", H+"C85_cut_violated", H+"C85_long_violated", H+"C85_round_violated"],
      "Proved for texts that end with a character that no word has, without reserved characters, for transducers none of whose words starts with a character that is not alphabetic, as long as fewer tokens are followed than the buffer holds and no word ends where the buffer goes round. The violated theorems show what happens otherwise. The lookup is a parameter: any machine that reads tokens.")
Z = "Hfst.Sfst."
claim("C86", "partial", [Z+"C86_roundtrip", Z+"C86_marks", Z+"C86_refused", Z+"C86_stale_violated", Z+"C86_pairs_violated", Z+"C86_long_violated"],
      "Proved for all transducers within the limits of the format whose nodes were never numbered or have good numbers. A transducer that was changed in place after its states were counted is written with undefined numbers, 65536 label pairs are written as none, and a symbol of 100000 bytes is written but cannot be read. A file that ends inside the alphabet is an undefined outcome of the model.")
claim("C87", "partial", [Z+"C87_import", Z+"C87_cyclic", Z+"C87_history_partial", Z+"C87_export", Z+"C87_roundtrip", Z+"C87_refused", Z+"C87_cyclic_violated", Z+"C87_ten_thousand_violated", Z+"C87_alphabet_violated"],
      "Proved for all transducers and all sequences of fewer than 9999 calls, where a cyclic transducer is not asked if it is cyclic. After that question a cyclic transducer that was converted before loses states in the next conversion, after ten thousand walks the question is answered wrong, and symbols outside the alphabet become epsilon. Other walks that may stop early (is_automaton, comparison, infinite ambiguity) are not in the model.")
EX = "Hfst.Extract."
claim("C88", "partial", [EX+"C88_found", EX+"C88_limit_partial", EX+"C88_reaches", EX+"C88_ends", EX+"C88_refused", EX+"C88_accepts", EX+"C88_limit_violated", EX+"C88_log_violated", EX+"C88_endless_violated"],
      "Proved for all transducers. The maximum can be exceeded by one, because the empty path is added after the search was stopped; with log weights the empty path is left out; and with a maximum and no number of cycles the search in a cyclic transducer may not end. The back-ends foma and XFSM are not in the model; the optimized format is in C43.")
TW = "Hfst.Twolc."
claim("C89", "partial", [TW+"C89_once_partial", TW+"C89_rules_partial", TW+"C89_unequal", TW+"C89_novalues_violated", TW+"C89_mixed_violated", TW+"C89_undefined_violated"],
      "Proved for all rules in which no variable is declared twice, every variable has a value, matched variables have lists of the same length and mixed variables can be given different positions. Without the last, the rule is written once with its variables not replaced, or the iterator reads behind the end of a vector; a variable without values makes the compiler throw an exception that nothing catches. A variable that is declared twice in one rule is not covered.")
TR = "Hfst.TwolcRule."
claim("C90", "partial", [TR+"C90_grammar_partial", TR+"C90_resolved_partial", TR+"C90_specific_partial", TR+"C90_order_violated", TR+"C90_same_pair_violated"],
      "Proved for all grammars, given transducer operations that are right (Lib.Right; a library with this property is given): what the stored transducers accept together without resolution of left-arrow conflicts; with resolution and no conflict that is reported as unresolvable, that one rule governs each place; and that the last rule that is about a place governs it if later rules are apart from earlier ones or narrower. The order matters, contrary to the claim: a rule that comes between two others in size but after both makes a conflict unresolvable that is resolved in another order (C90_order_violated). Conflicts are reported between rules with the same center (C90_same_pair_violated). Not covered: diacritics, pairs that are not declared, centers with the input 0 or the word boundary when left-arrow conflicts are resolved.")
TL = "Hfst.Tools."
claim("C91", "partial", [TL+"C91_head", TL+"C91_head_default", TL+"C91_head_but_partial", TL+"C91_head_endless_violated", TL+"C91_tail", TL+"C91_tail_from", TL+"C91_tail_default_violated", TL+"C91_number", TL+"C91_split", TL+"C91_pairs_partial", TL+"C91_compare_partial", TL+"C91_compose_partial", TL+"C91_compose_violated", TL+"C91_constant_violated"],
      "Proved for all archives and option texts: hfst-head, hfst-tail and hfst-split; for all operations that leave the second transducer as it is, or changed in a way later results cannot tell, the pairing, the errors and the exit codes. The code disagrees in four places: hfst-head -n -K never ends for K from 2^32 on (C91_head_endless_violated), hfst-tail without an option writes the first transducer, too (C91_tail_default_violated), hfst-compose with one transducer in the first input composes with the result before (C91_compose_violated), and hfst-concatenate -F changes the second transducer in every round (C91_constant_violated). Not covered: the choice of the output format, names, formulas and messages.")
FH = "Hfst.FlagHarm."
claim("C92", "partial", [FH+"C92_rename", FH+"C92_rename_meaning", FH+"C92_concatenation", FH+"C92_conjunction", FH+"C92_subtract_violated", FH+"C92_alphabet_violated"],
      "Proved for all transducers with flags on both sides of transitions and all symbols of the alphabet on transitions: renaming, concatenation and conjunction (the last for flags with values, since remove_illegal_flag_paths, whose behaviour is a hypothesis, recognises only those). The code disagrees in two places: with flags in both transducers subtraction does not remove what the second accepts, so that a transducer minus itself is not empty (C92_subtract_violated; the tool warns that the result may be incorrect), and renaming forgets the symbols that are in the alphabet only, so that an identity then also stands for them (C92_alphabet_violated).")
RW = "Hfst.Reweight."
claim("C93", "partial", [RW+"C93_reweight", RW+"C93_stream", RW+"C93_refused", RW+"C93_rules_partial", RW+"C93_rules_violated", RW+"C93_negative_violated", RW+"C93_freed_violated", RW+"C93_alphabet_violated"],
      "Proved for all transducers and options: the paths and weights of the result, and which rule files are refused; for rule files with values of one kind: the rules are applied one after the other. The code disagrees in four places: a value of an earlier line of the file is used again with the later lines (C93_rules_violated), the default of the lower bound is 0 (C93_negative_violated), with -S and a file without rules the symbol is freed twice (C93_freed_violated), and the symbols that are in the alphabet only are lost (C93_alphabet_violated). Weights are exact integers in the model.")
XS = "Hfst.Xfst."
claim("C94", "partial", [XS+n for n in ["C94_turn", "C94_rotate_partial", "C94_rotate_violated", "C94_save_load", "C94_names_partial", "C94_names_violated", "C94_unknown_violated", "C94_define", "C94_undefine", "C94_definitions", "C94_write_definition_partial", "C94_write_definition_violated", "C94_operations", "C94_iterate_partial", "C94_union_violated", "C94_lost_violated", "C94_tests_partial", "C94_tests_violated"]],
      "Proved for all histories of commands: turn, saving and loading the stack and the definitions, define and undefine, operations on one or two networks, and that both ways to use a name agree as long as nothing is loaded. The code disagrees in seven places: rotate reverses the stack (C94_rotate_violated), load defined does not tell the regular expressions (C94_names_violated, C94_unknown_violated), write definition writes no name (C94_write_definition_violated), union and shuffle take the whole stack (C94_union_violated), a composition that fails loses the top network (C94_lost_violated), and the tests look at the whole stack (C94_tests_violated). Operations, comparison and the compilation of expressions are parameters.")
PT = "Hfst.PairTest."
claim("C95", "partial", [PT+n for n in ["C95_exit_partial", "C95_one", "C95_names_partial", "C95_xerox_partial", "C95_symbols_violated", "C95_nondeterministic_violated"]],
      "Proved for all grammars whose rules are deterministic and have one alphabet, as hfst-twolc writes them, and all files: the exit code in the three modes and the rules named. For other grammars the code disagrees: the known symbols are those on the transitions of the first rule only (C95_symbols_violated), and only the first of several transitions for a pair is followed (C95_nondeterministic_violated). The tokenizers are parameters; the positions printed for a rejected string are not modelled.")
KP = "Hfst.KillPaths."
claim("C96", "partial", [KP+n for n in ["C96_kill", "C96_stream_partial", "C96_identity_violated", "C96_both_violated", "C96_freed_violated"]],
      "Proved for all transducers, symbols, files and archives: the accepting paths and weights of the result with -S or with -T. The code disagrees in three places: the symbol is not in the alphabet of the result, so that the identity symbol can stand for it and strings with it are accepted (C96_identity_violated); with -T the symbol of -S is ignored (C96_both_violated); and with -S and a file without symbols the memory of the symbol is freed twice (C96_freed_violated).")
EE = "Hfst.Expand."
claim("C97", "partial", [EE+n for n in ["C97_single", "C97_file_partial", "C97_acx_partial", "C97_keeps", "C97_options", "C97_empty", "C97_level_partial", "C97_archive_violated", "C97_acx_violated", "C97_epsilon_violated", "C97_level_violated"]],
      "Proved for all archives, files, symbols and levels, over any library whose functions mean what they should: the pairs of strings accepted after -f and -t, after -T for the first transducer, and after -a with libxml; which files and options make the tool fail. The code disagrees in four places: the file of -T is read to its end for the first transducer, and the others are not expanded (C97_archive_violated); without libxml, which the build files never look for, -a reports success and expands nothing (C97_acx_violated); @0@ is an ordinary symbol (C97_epsilon_violated); two of the names of levels in the help text are refused (C97_level_violated).")
SB = "Hfst.Subst."
claim("C98", "partial", [SB+n for n in ["C98_label", "C98_options", "C98_empty_option", "C98_inOrder_partial", "C98_file_partial", "C98_wrong_line", "C98_never_violated", "C98_mixed_violated", "C98_archive_violated", "C98_zero_violated"]],
      "Proved for all labels, files and archives: which labels are pairs, which substitutions are made and in which order, which lines make the tool fail. What a substitution of the library does is the subject of other properties. The code disagrees in four places: a label that starts with a backslash and a colon makes the tool run for ever (C98_never_violated); a pair that is to be replaced with a symbol is taken as the name of a symbol (C98_mixed_violated); with -F only the first transducer of the archive is changed (C98_archive_violated); and @0@ is an ordinary symbol in a file (C98_zero_violated).")
RT = "Hfst.Repeat."
claim("C99", "partial", [RT+n for n in ["C99_repeat_partial", "C99_not_a_number", "C99_negative_from", "C99_infinity_to_number", "C99_to_infinity_violated", "C99_from_infinity_violated", "C99_minus_infinity_violated", "C99_large_violated", "C99_negative_violated", "C99_nan_violated"]],
      "Proved for all archives and all numbers up to 2147483647: how many repetitions are accepted, and when the tool fails. That the functions of the library repeat is assumed here (Lawful) and proved in C73 for the default implementation. The code disagrees in six places: -f 1 -t inf fails (C99_to_infinity_violated); -f inf accepts no repetition at all (C99_from_infinity_violated); -t -inf means any number of times (C99_minus_infinity_violated); numbers above 2147483647 are cut without a message (C99_large_violated); -t -1 means up to 4294967295 times (C99_negative_violated); and nan has undefined behaviour (C99_nan_violated).")
SU = "Hfst.Summarize."
claim("C100", "partial", [SU+n for n in ["C100_counts", "C100_answers", "C100_extremes", "C100_different", "C100_symbols", "C100_pairs", "C100_cyclic_partial", "C100_cyclic_violated"]],
      "Proved for all transducers: all numbers, the symbols, the symbol pairs, and the answers to acceptor, input and output deterministic. The answers to cyclic and cyclic at initial state are yes only for cyclic transducers, but cycles of more than one transition are not seen (C100_cyclic_violated). Not modelled: the names of the most ambiguous symbols, the averages, the first input symbols and the lines that depend on the type only; infinite ambiguity is C24.")
IN = "Hfst.Info."
claim("C101", "partial", [IN+n for n in ["C101_version_partial", "C101_wrong", "C101_feature_partial", "C101_max_violated", "C101_feature_violated", "C101_great_number_violated", "C101_empty_violated"]],
      "Proved for all versions whose later numbers are below 10000 and for all builds: -a and -e, -f for SFST, ICU and unknown names, and which texts are refused. The code disagrees in four places: -m tests the same as -a (C101_max_violated); -f foma, xfsm and openfst succeed exactly if the library does not have them (C101_feature_violated); numbers of 10000 and more run into the number before (C101_great_number_violated); and empty numbers are read as 0 (C101_empty_violated).")
EM = "Hfst.EditMeta."
claim("C102", "partial", [EM+n for n in ["C102_add_partial", "C102_print_all", "C102_no_equals", "C102_encoding", "C102_print_violated", "C102_add_print_violated", "C102_order_violated", "C102_output_violated", "C102_truncate_violated"]],
      "Proved for all archives: what any number of options -a, with or without -t, writes; that all properties are printed; which arguments are refused. Which texts are UTF-8 is a parameter. The code disagrees in five places: -p NAME prints all properties (C102_print_violated); -p NAME after -a prints the old value and adds nothing, with undefined behaviour if there is no such property (C102_add_print_violated); -p after -a prints all and adds nothing, before -a it does nothing (C102_order_violated); printing with -o has undefined behaviour (C102_output_violated); -t can cut inside a character, which ends in an uncaught exception (C102_truncate_violated).")
CA = "Hfst.CheckAlpha."
claim("C103", "partial", [CA+n for n in ["C103_exit_partial", "C103_listed", "C103_superset_violated", "C103_length_violated"]],
      "Proved for all archives of the same length: the exit code and the symbols listed. The code disagrees in two places: the line that a transducer has a superset of the symbols of the other is printed exactly if it has a subset of them (C103_superset_violated), and transducers that only one archive has are not looked at (C103_length_violated).")
TV = "Hfst.Traverse."
claim("C104", "proved", [TV+n for n in ["C104_followed", "C104_screen", "C104_never_lost"]],
      "For all transducers and all lists of lines: which lines are followed, which paths are shown and what is offered with each of them. How often a path that is reached over different states is shown, and the order of the paths, are not part of the statement. Only the first transducer of an archive is walked.")
SH = "Hfst.StripHeader."
claim("C105", "partial", [SH+n for n in ["C105_strip_partial", "C105_strip_exact_partial", "C105_every_file", "C105_end_violated", "C105_written_violated"]],
      "Proved for all files: exactly the old headers (HFST3) are removed, and every other byte is kept unless the file ends with the beginning of a header. The code disagrees in two places: such an end is lost (C105_end_violated), and the headers that the library writes today, which begin with HFST and a NUL, are not removed (C105_written_violated).")
TN = "Hfst.ToolName."
claim("C106", "partial", [TN+n for n in ["C106_name_partial", "C106_truncate_partial", "C106_print", "C106_truncate_violated"]],
      "Proved for all archives: what -n, -t and -p do. Which texts are UTF-8 is a parameter. The code disagrees in one place: a name that is cut inside of a character makes the tool crash (C106_truncate_violated).")
AG = "Hfst.AffixGuess."
claim("C107", "proved", [AG+n for n in ["C107_prefix_paths"]],
      "For all transducers whose transitions lead to states, and all weights. The transitions added read identity symbols only, so symbols that the transducer knows are not guessed after a prefix. The direction suffix is not modelled.")
C.sort(key=lambda c: int(c["property"][1:]))
json.dump({"claims": C}, open(os.path.join(ROOT, "MANIFEST.json"), "w"), indent=1, ensure_ascii=False)
