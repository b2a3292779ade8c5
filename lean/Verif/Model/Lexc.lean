import Verif.Model.Harmonize
import Verif.Model.Tokenizer

/-!
# The lexc compiler

Model of libhfst/src/parsers/LexcCompiler.cc with the entry handlers of lexc-parser.yy, for compilation without flags
(`with_flags_` false) and without alignment (`align_strings_` false).

Simplifications common to this file:
* Texts are lists of bytes, as the tokenizer sees them.  Symbols of transducers are lists of characters in the rest of
  the model; here each character stands for one byte (`sym`, `bytes`).
* `HfstTransducer` is represented by its `HfstBasicTransducer`; the operations that the back-end performs are the
  functions of `Backend`, about which the theorems assume only `Backend.Ok`.
* ICU (grapheme clusters) and the regular expression compiler are parameters.
* Printing of messages, line numbers and counters are left out.  `std::set` is a list; the order of its elements makes
  no difference to the language.
-/
namespace Hfst.Lexc
open Hfst.Basic
open Hfst.Tok (Bytes Byte)

/-- A byte string as a symbol of a transducer; both are `std::string` (libhfst/src/HfstTokenizer.h:32,
libhfst/src/implementations/HfstBasicTransducer.h:144). -/
def sym (b : Bytes) : Sym := b.map fun x => Char.ofNat x.toNat

/-- A symbol of a transducer as a byte string; both are `std::string` (libhfst/src/HfstTokenizer.h:32,
libhfst/src/implementations/HfstBasicTransducer.h:144). -/
def bytes (s : Sym) : Bytes := s.map fun c => UInt8.ofNat c.toNat

/-- A string literal of the code (for instance libhfst/src/parsers/lexc-utils.h:36). -/
def lit (s : String) : Bytes := bytes s.toList

/-- `joinerEncode` (libhfst/src/parsers/lexc-utils.cc:95-102, lexc-utils.h:36-37). -/
def joiner (n : Bytes) : Bytes := lit "$_LEXC_JOINER." ++ n ++ lit "_$"

/-- `flagJoinerEncode` (libhfst/src/parsers/lexc-utils.cc:76-93, lexc-utils.h:38-40). -/
def flagJoiner (n : Bytes) (left : Bool) : Bytes :=
  lit (if left then "$R.LEXNAME." else "$P.LEXNAME.") ++ n ++ lit "$"

/-- The key of the regular expressions of a lexicon with a continuation (libhfst/src/parsers/LexcCompiler.cc:1089-1091;
`regExpresionEncode`, lexc-utils.cc:114-121, lexc-utils.h:43-44). -/
def regKey (lex cont : Bytes) : Bytes := lit "$_REG." ++ (lex ++ lit "_" ++ cont) ++ lit "_$"

/-- `replace(alph.begin(), alph.end(), '$', '@')` (libhfst/src/parsers/LexcCompiler.cc:1496, 1523). -/
def dollarToAt (b : Bytes) : Bytes := b.map fun x => if x = 36 then 64 else x

/-- `find(pat)` followed by `replace` of that occurrence (libhfst/src/parsers/LexcCompiler.cc:676-680,
lexc-parser.yy:51-55). -/
def replaceFirst (pat new : Bytes) : Bytes → Bytes
  | [] => []
  | c :: s => if pat.isPrefixOf (c :: s) then new ++ (c :: s).drop pat.length else c :: replaceFirst pat new s

/-- The operations of the back-end used here (libhfst/src/parsers/LexcCompiler.cc:1103, 1280-1283, 1306, 1445-1459). -/
structure Backend where
  optimize : Graph → Graph
  star : Graph → Graph
  concat : Graph → Graph → Graph
  disjunct : Graph → Graph → Graph
  compose : Graph → Graph → Graph

/-- Settings of the compiler and the external functions: the size of the first grapheme cluster and the clusters of a
text that have more than one code point (ICU), and the regular expression compiler
(libhfst/src/parsers/LexcCompiler.h, members; LexcCompiler.cc:104-150, 531-616, 1030). -/
structure Config where
  split : Bool
  grapheme : Bytes → Nat
  clusters : Bytes → List Bytes
  xre : Bytes → Option Graph
  werror : Bool
  warnMissing : Bool
  warnRepeated : Bool

/-- Data members of `LexcCompiler` (libhfst/src/parsers/LexcCompiler.h, members; LexcCompiler.cc:188-213).  `regs` are
the symbols registered in `tokenizer_` so far.  `first` is the variable `firstLexicon`, static in
`setCurrentLexiconName` (LexcCompiler.cc:1159): there is one for all compilers of the process. -/
structure Compiler where
  regs : List Bytes
  trie : Graph
  regexps : List (Bytes × Graph)
  names : List Bytes
  conts : List Bytes
  alphabets : List Bytes
  noFlags : List Bytes
  current : Bytes
  initial : Bytes
  errors : Bool
  first : Bool

/-- The symbols registered by every constructor except the first, and by `reset`
(libhfst/src/parsers/LexcCompiler.cc:140-143, 191-195). -/
def baseRegs : List Bytes := [lit "@_EPSILON_SYMBOL_@", lit "@0@", lit "@ZERO@", lit "@@ANOTHER_EPSILON@@"]

/-- `LexcCompiler(impl)` and `LexcCompiler(impl, withFlags, alignStrings)`
(libhfst/src/parsers/LexcCompiler.cc:125-178). -/
def Compiler.create (first : Bool) : Compiler where
  regs := baseRegs ++ [joiner (lit "#")]
  trie := Graph.init
  regexps := []
  names := [lit "#"]
  conts := []
  alphabets := []
  noFlags := []
  current := []
  initial := lit "Root"
  errors := false
  first := first

/-- `LexcCompiler()` (libhfst/src/parsers/LexcCompiler.cc:104-123). -/
def Compiler.createDefault (first : Bool) : Compiler :=
  { Compiler.create first with regs := [], names := [] }

/-- `reset` (libhfst/src/parsers/LexcCompiler.cc:188-213). -/
def Compiler.reset (c : Compiler) : Compiler := { Compiler.create c.first with regs := baseRegs }

/-- `tokenizer_.add_multichar_symbol` (libhfst/src/HfstTokenizer.cc:212-220, for instance
libhfst/src/parsers/LexcCompiler.cc:640). -/
def Compiler.register (c : Compiler) (s : Bytes) : Compiler := { c with regs := c.regs ++ [s] }

/-- `addAlphabet` (libhfst/src/parsers/LexcCompiler.cc:517-528). -/
def Compiler.addAlphabet (c : Compiler) (a : Bytes) : Compiler :=
  { c with alphabets := setInsert c.alphabets a, regs := c.regs ++ [a] }

/-- `unicodeCheck_` (libhfst/src/parsers/LexcCompiler.cc:530-616); the clusters of one code point are skipped there. -/
def Compiler.unicodeCheck (cfg : Config) (c : Compiler) (data : Bytes) : Compiler :=
  if cfg.split then c
  else (cfg.clusters data).foldl (fun c g =>
    if g ∈ c.alphabets then c else { c with errors := c.errors || cfg.werror }.addAlphabet g) c

/-- `tokenizer_.tokenize(text, split)` (libhfst/src/HfstTokenizer.cc:234-252), the symbols only.  The tokenizer is built
from the symbols registered so far.  A loop that never ends is reported as `undefined`. -/
def tokenize (cfg : Config) (regs : List Bytes) (split : Bool) (s : Bytes) : Outcome (List Bytes) :=
  match Tok.Tokenizer.empty.register (regs.map fun r => ⟨false, r⟩) with
  | none => .undefined
  | some t =>
    match t.tokenize cfg.grapheme split s with
    | .tokens l => .ok l
    | _ => .undefined

/-- The changes to one symbol of a new entry (libhfst/src/parsers/LexcCompiler.cc:672-680, 681-689). -/
def zeroes (x : Bytes) : Bytes :=
  replaceFirst (lit "@ZERO@") (lit "0") (if x = lit "0" then lit "@0@" else x)

/-- The tests for `@...@` and `$...$` (libhfst/src/parsers/LexcCompiler.cc:692-699). -/
def marked (x : Bytes) : Bool :=
  ((lit "@").isPrefixOf x && (lit "@").isSuffixOf x) || ((lit "$").isPrefixOf x && (lit "$").isSuffixOf x)

/-- Adding a symbol of an entry to the alphabet (libhfst/src/parsers/LexcCompiler.cc:690-716); the second component tells
whether `continue` has been executed. -/
def Compiler.learn (cfg : Config) (c : Compiler) (x : Bytes) : Compiler × Bool :=
  if x ∈ c.alphabets then (c, false)
  else if marked x then (c, true)
  else ({ c with errors := c.errors || (cfg.warnMissing && cfg.werror) }.addAlphabet x, false)

/-- One turn of the loop over the pairs in `addStringEntry` (libhfst/src/parsers/LexcCompiler.cc:668-717); only the first
symbol is looked at. -/
def Compiler.learnOne (cfg : Config) (c : Compiler) (p : Bytes × Bytes) : Compiler := (c.learn cfg p.1).1

/-- One turn of the loop over the pairs in `addStringPairEntry` (libhfst/src/parsers/LexcCompiler.cc:912-993). -/
def Compiler.learnPair (cfg : Config) (c : Compiler) (p : Bytes × Bytes) : Compiler :=
  let r := c.learn cfg p.1
  if r.2 then r.1 else (r.1.learn cfg p.2).1

/-- `stringsTrie_.disjunct(newVector, weight)` (libhfst/src/parsers/LexcCompiler.cc:718, 995, 1135). -/
def Compiler.addPath (c : Compiler) (v : List (Bytes × Bytes)) (w : Int) : Outcome Compiler :=
  (c.trie.disjunct (v.map fun p => (sym p.1, sym p.2)) w).bind fun t => .ok { c with trie := t }

/-- The registrations at the beginning of `addStringEntry` and `addStringPairEntry`
(libhfst/src/parsers/LexcCompiler.cc:626-663, 787-823). -/
def Compiler.prepare (c : Compiler) (cont : Bytes) : Compiler :=
  let c := { c with conts := setInsert c.conts cont }
  (((c.register (joiner cont)).register (joiner c.current)).register (lit "0")).register (lit "@ZERO@")

/-- `addStringEntry` (libhfst/src/parsers/LexcCompiler.cc:619-724). -/
def Compiler.addStringEntry (cfg : Config) (c : Compiler) (data cont : Bytes) (w : Int) : Outcome Compiler :=
  let c := (c.unicodeCheck cfg data).prepare cont
  (tokenize cfg c.regs cfg.split (joiner c.current ++ data ++ joiner cont)).bind fun toks =>
    let v := toks.map fun x => (zeroes x, zeroes x)
    (v.foldl (Compiler.learnOne cfg) c).addPath v w

/-- The padding (libhfst/src/parsers/LexcCompiler.cc:883-887, 895-899). -/
def padding (n : Nat) : Bytes := (List.replicate n (lit "@@ANOTHER_EPSILON@@")).flatten

/-- `addStringPairEntry` (libhfst/src/parsers/LexcCompiler.cc:778-998), without alignment.  The callback that warns about
flag diacritics on one side is left out. -/
def Compiler.addStringPairEntry (cfg : Config) (c : Compiler) (upper lower cont : Bytes) (w : Int) : Outcome Compiler :=
  let c := ((c.unicodeCheck cfg upper).unicodeCheck cfg lower).prepare cont
  (tokenize cfg c.regs cfg.split upper).bind fun us =>
  (tokenize cfg c.regs cfg.split lower).bind fun ls =>
  (tokenize cfg c.regs cfg.split
    (joiner c.current ++ (upper ++ padding (ls.length - us.length)) ++ joiner cont)).bind fun us' =>
  (tokenize cfg c.regs cfg.split
    (joiner c.current ++ (lower ++ padding (us.length - ls.length)) ++ joiner cont)).bind fun ls' =>
    let v := (Tok.pairUp (lit "@_EPSILON_SYMBOL_@") us' ls').map fun p => (zeroes p.1, zeroes p.2)
    (v.foldl (Compiler.learnPair cfg) c).addPath v w

/-- Adding a symbol of a regular expression to the alphabet (libhfst/src/parsers/LexcCompiler.cc:1041-1086). -/
def Compiler.learnRegexp (cfg : Config) (c : Compiler) (x : Sym) : Compiler :=
  if bytes x ∈ c.alphabets then c
  else if x = epsilon ∨ x = unknown ∨ x = identity then c
  else { c with errors := c.errors || (cfg.warnMissing && cfg.werror && !(cfg.clusters (bytes x)).contains (bytes x)) }.addAlphabet
    (bytes x)

/-- `addXreEntry` (libhfst/src/parsers/LexcCompiler.cc:1001-1138).  `HfstTransducer(format_)` is the empty transducer.  The
test for more than one code point is made on whole symbols there; in the model it is made with the cluster function, which
concerns only whether an error is recorded. -/
def Compiler.addXreEntry (cfg : Config) (B : Backend) (c : Compiler) (regexp cont : Bytes) (w : Int) : Outcome Compiler :=
  let c := { c with conts := setInsert c.conts cont }.register (joiner cont)
  match cfg.xre regexp with
  | none => .ok { c with errors := true }
  | some g =>
    let g := B.optimize g
    let c := g.alphabet.foldl (Compiler.learnRegexp cfg) c
    let key := regKey c.current cont
    let c := c.register key
    let old := (mapGet c.regexps key).getD Graph.init
    let c := { c with regexps := mapPut c.regexps key (B.optimize (B.disjunct old g)) }
    let c := c.register (joiner c.current)
    (tokenize cfg c.regs false (joiner c.current ++ key ++ joiner cont)).bind fun toks =>
      c.addPath (toks.map fun x => (x, x)) w

/-- `setInitialLexiconName` (libhfst/src/parsers/LexcCompiler.cc:1243-1252). -/
def Compiler.setInitial (c : Compiler) (n : Bytes) : Compiler :=
  { c with initial := n, names := setInsert c.names n, conts := setInsert c.conts n }

/-- `setCurrentLexiconName` (libhfst/src/parsers/LexcCompiler.cc:1156-1241).  The second flag joiner is made from the
first one, as in the code (1184-1187). -/
def Compiler.setCurrent (cfg : Config) (c : Compiler) (n : Bytes) : Compiler :=
  let c := { c with
    current := n
    errors := c.errors || (decide (n ∈ c.names) && !cfg.warnRepeated && cfg.werror)
    names := setInsert c.names n }
  let c := if n ∈ c.noFlags then c.register (joiner n)
    else (c.register (flagJoiner n false)).register (flagJoiner (flagJoiner n false) true)
  let c := if c.first ∧ n = lit "Root" then c.setInitial n
    else if c.first ∧ n ≠ lit "Root" then { c with errors := c.errors || cfg.werror }.setInitial n
    else if !c.first ∧ n = lit "Root" then { c with errors := c.errors || cfg.werror }.setInitial n
    else c
  { c with first := false }

/-- What the parser asks the compiler to do (actions of libhfst/src/parsers/lexc-parser.yy:245-420), after the gloss has
been turned into a weight.  Definitions of regular expressions are left out. -/
inductive Call where
  | noFlag (n : Bytes)
  | multichar (m : Bytes)
  | lexicon (n : Bytes)
  | string (data cont : Bytes) (w : Int)
  | pair (upper lower cont : Bytes) (w : Int)
  | regexp (re cont : Bytes) (w : Int)

/-- `handle_multichar` (libhfst/src/parsers/lexc-parser.yy:42-65). -/
def Compiler.multichar (c : Compiler) (m : Bytes) : Compiler :=
  ((c.addAlphabet m).addAlphabet (replaceFirst (lit "@ZERO@") (lit "0") m)).addAlphabet
    (replaceFirst (lit "0") (lit "@ZERO@") m)

/-- The handlers (libhfst/src/parsers/lexc-parser.yy:40-200); `handle_string_pair_entry` takes a side that is just `0` to be
empty (155-184). -/
def Compiler.call (cfg : Config) (B : Backend) (c : Compiler) : Call → Outcome Compiler
  | .noFlag n => .ok { c with noFlags := setInsert c.noFlags n }
  | .multichar m => .ok (c.multichar m)
  | .lexicon n => .ok (c.setCurrent cfg n)
  | .string d k w => c.addStringEntry cfg d k w
  | .pair u l k w =>
    c.addStringPairEntry cfg (if u = lit "0" then [] else u) (if l = lit "0" then [] else l) k w
  | .regexp r k w => c.addXreEntry cfg B r k w

/-- `parse` (libhfst/src/parsers/LexcCompiler.cc:268-315): the actions in the order of the file. -/
def Compiler.run (cfg : Config) (B : Backend) (c : Compiler) : List Call → Outcome Compiler
  | [] => .ok c
  | x :: xs => (c.call cfg B x).bind fun c' => c'.run cfg B xs

/-- `printConnectedness` (libhfst/src/parsers/LexcCompiler.cc:1655-1718): whether a warning is generated. -/
def Compiler.unconnected (c : Compiler) : Bool :=
  c.conts.any (fun n => decide (n ∉ c.names)) || c.names.any (fun n => decide (n ∉ c.conts))

/-- A transducer made from a text (`HfstTransducer(utf8_str, tokenizer, type)`, libhfst/src/HfstTransducer.cc:936-960) and a
path added to a `HfstBasicTransducer`; both are modelled by `HfstBasicTransducer::disjunct`
(libhfst/src/parsers/LexcCompiler.cc:1299-1306, 1321-1323). -/
def addText (cfg : Config) (regs : List Bytes) (g : Graph) (text : Bytes) : Outcome Graph :=
  (tokenize cfg regs false text).bind fun toks => g.disjunct (toks.map fun x => (sym x, sym x)) 0

/-- The prefixes of symbols that are not put into the filter (libhfst/src/parsers/LexcCompiler.cc:1400-1404). -/
def excluded (x : Sym) : Bool :=
  [sym (lit "@@ANOTHER_EPSILON@@"), sym (lit "$_LEXC_JOINER."), sym (lit "@_"), sym (lit "$P.LEXNAME."),
    sym (lit "$R.LEXNAME.")].any fun p => p.isPrefixOf x

/-- `rightSymbols` (libhfst/src/parsers/LexcCompiler.cc:1384-1414). -/
def rightSymbols (g : Graph) : List Sym :=
  ((g.states.flatten.map (·.out)).filter fun x => !excluded x).eraseDups

/-- The pairs of joiners in `joinersTrie_` (libhfst/src/parsers/LexcCompiler.cc:1308-1327). -/
def addJoiners (cfg : Config) (regs : List Bytes) : List Bytes → Graph → Outcome Graph
  | [], g => .ok g
  | n :: ns, g => (addText cfg regs g (joiner n ++ joiner n)).bind fun g' => addJoiners cfg regs ns g'

/-- The single symbols in `joinersTrie_`; each is registered before it is cut (libhfst/src/parsers/LexcCompiler.cc:1416-1423). -/
def addRights (cfg : Config) : List Sym → List Bytes → Graph → Outcome Graph
  | [], _, g => .ok g
  | x :: xs, regs, g =>
    (addText cfg (regs ++ [bytes x]) g (bytes x)).bind fun g' => addRights cfg xs (regs ++ [bytes x]) g'

/-- `smallSubstitutions` (libhfst/src/parsers/LexcCompiler.cc:1285-1289). -/
def smallSubstitutions : List (Sym × Sym) :=
  [(sym (lit "@0@"), epsilon), (sym (lit "@@ANOTHER_EPSILON@@"), epsilon), (sym (lit "@ZERO@"), sym (lit "0"))]

/-- `allJoinersToEpsilon` (libhfst/src/parsers/LexcCompiler.cc:1325-1337). -/
def Compiler.joinersToEpsilon (c : Compiler) : List (Sym × Sym) :=
  (c.names ++ [c.initial, lit "#"]).map fun n => (sym (joiner n), epsilon)

/-- Harmonizing the graph with the inserted graphs, one symbol after the other
(libhfst/src/implementations/HfstBasicTransducer.cc:2814-2821).  `at` throws for a symbol without a graph.  The code takes the
symbols in alphabetical order. -/
def harmonizeAll : List Sym → Graph → List (Sym × Graph) → Outcome (Graph × List (Sym × Graph))
  | [], g, m => .ok (g, m)
  | x :: xs, g, m =>
    match mapGet m x with
    | none => .throws
    | some h => (harmonize g h).bind fun r => harmonizeAll xs r.1 (mapPut m x r.2)

/-- `substitute(SubstMap, true)`, that is with harmonization
(libhfst/src/implementations/HfstBasicTransducer.cc:2712-2830). -/
def substituteHarmonized (g : Graph) (m : List (Sym × Graph)) : Outcome Graph :=
  if m.any (fun e => !Graph.isValidSymbol e.1) then .throws
  else if !(m.any fun e => e.1 ∈ g.alphabet) then .ok g
  else if g.states.any (fun l => l.any fun a =>
      ((mapGet m a.inp).isSome || (mapGet m a.out).isSome) && a.inp ≠ a.out) then .throws
  else
    let subs := g.scheduled fun a => (mapGet m a.inp).map fun _ => a.inp
    let performed := ((g.states.flatten.filter fun a => (mapGet m a.inp).isSome).map (·.inp)).eraseDups
    let g1 : Graph := { g with
      states := g.states.map fun l => l.filter fun a => (mapGet m a.inp).isNone
      alphabet := g.alphabet.filter fun x =>
        x ∉ performed || x = epsilon || x = unknown || x = identity }
    (harmonizeAll performed g1 m).bind fun r =>
      .ok (subs.foldl (fun g e => g.addSubstitution e.1 ((mapGet r.2 e.2).getD Graph.init)) r.1)

/-- The lexicons before the filter (libhfst/src/parsers/LexcCompiler.cc:1277-1306). -/
def Compiler.overgenerate (cfg : Config) (B : Backend) (c : Compiler) : Outcome Graph :=
  let lexicons := B.optimize (B.star (B.optimize c.trie))
  (lexicons.substituteMap smallSubstitutions).bind fun lexicons =>
  let lexicons := lexicons.pruneAlphabet
  (addText cfg c.regs Graph.init (joiner c.initial)).bind fun start =>
  (addText cfg c.regs Graph.init (joiner (lit "#"))).bind fun end_ =>
    .ok (B.optimize (B.concat (B.concat start lexicons) end_))

/-- The filter (libhfst/src/parsers/LexcCompiler.cc:1308-1327, 1384-1428). -/
def Compiler.filter (cfg : Config) (B : Backend) (c : Compiler) (lexicons : Graph) : Outcome Graph :=
  (addJoiners cfg c.regs c.names Graph.init).bind fun t =>
  (addRights cfg (rightSymbols lexicons) c.regs t).bind fun t =>
    .ok (B.optimize (B.star t))

/-- The keys of regular expressions as they are after the exchange of `$` and `@`, with the transducers
(libhfst/src/parsers/LexcCompiler.cc:1536-1560). -/
def Compiler.marks (c : Compiler) : List (Sym × Graph) :=
  c.regexps.map fun e => (sym (dollarToAt e.1), e.2)

/-- `compileLexical` (libhfst/src/parsers/LexcCompiler.cc:1254-1652) without flags; `none` is the null pointer. -/
def Compiler.compile (cfg : Config) (B : Backend) (c : Compiler) : Outcome (Option Graph) :=
  if c.errors then .ok none
  else if c.unconnected && cfg.werror then .ok none
  else
    (c.overgenerate cfg B).bind fun lexicons =>
    (c.filter cfg B lexicons).bind fun joinersAll =>
    let lexicons := B.optimize (B.compose lexicons joinersAll)
    (lexicons.substituteMap c.joinersToEpsilon).bind fun lexicons =>
    let lexicons := (B.optimize lexicons).pruneAlphabet
    (lexicons.substituteMap (c.regexps.map fun e => (sym e.1, sym (dollarToAt e.1)))).bind fun lexicons =>
    let lexicons := (B.optimize lexicons).pruneAlphabet
    (substituteHarmonized lexicons c.marks).bind fun lexicons =>
      .ok (some (B.optimize lexicons.pruneAlphabet))

end Hfst.Lexc
