import Verif.Model.Text

/-!
# Prolog text format

Model of libhfst/src/implementations/HfstBasicTransducer.cc:874-1499.  Weights are printed by a parameter `showW` and
read by a parameter `readW` (`none` when the stream extraction fails).  The line counter is left out.
-/
namespace Hfst.Prolog
open Hfst.StdString Hfst.Basic Hfst.Text

/-- `prologize_symbol` (libhfst/src/implementations/HfstBasicTransducer.cc:876-894). -/
def prologize (x : Sym) : Str :=
  if x = "0".toList then "%0".toList
  else if x = "?".toList then "%?".toList
  else if x = epsilon then "0".toList
  else if x = unknown then "?".toList
  else if x = identity then "?".toList
  else replaceAll (replaceAll x ['\\'] ['\\', '\\']) ['"'] ['\\', '"']

/-- `deprologize_symbol` (libhfst/src/implementations/HfstBasicTransducer.cc:897-914). -/
def deprologize (x : Str) : Sym :=
  if x = "%0".toList then "0".toList
  else if x = "%?".toList then "?".toList
  else if x = "0".toList then epsilon
  else if x = "?".toList then unknown
  else replaceAll (replaceAll x ['\\', '"'] ['"']) ['\\', '\\'] ['\\']

/-- `print_prolog_arc_symbols` (libhfst/src/implementations/HfstBasicTransducer.cc:916-944). -/
def arcSymbols (i o : Sym) : Str :=
  '"' :: prologize i ++ ['"'] ++ if i ≠ o ∨ i = unknown then ":\"".toList ++ prologize o ++ ['"'] else []

/-- The symbols of the alphabet that are on no transition and are not special
(libhfst/src/implementations/HfstBasicTransducer.cc:963-973). -/
def unusedSymbols (g : Graph) : List Sym :=
  g.alphabet.filter fun x => ¬ (x ∈ g.symbolsUsed ∨ x = epsilon ∨ x = unknown ∨ x = identity)

/-- The line `symbol(...)` (libhfst/src/implementations/HfstBasicTransducer.cc:970-971). -/
def symbolLine (name : Str) (x : Sym) : Str :=
  "symbol(".toList ++ name ++ ", \"".toList ++ prologize x ++ "\").\n".toList

/-- The line `arc(...)` (libhfst/src/implementations/HfstBasicTransducer.cc:980-989). -/
def arcLine (showW : Int → Str) (ww : Bool) (name : Str) (s : Nat) (a : Arc) : Str :=
  "arc(".toList ++ name ++ ", ".toList ++ natText s ++ ", ".toList ++ natText a.target ++ ", ".toList ++
    arcSymbols a.inp a.out ++ (if ww then ", ".toList ++ showW a.weight else []) ++ ").\n".toList

/-- The line `final(...)` (libhfst/src/implementations/HfstBasicTransducer.cc:995-1003). -/
def finalLine (showW : Int → Str) (ww : Bool) (name : Str) (f : Nat × Int) : Str :=
  "final(".toList ++ name ++ ", ".toList ++ natText f.1 ++ (if ww then ", ".toList ++ showW f.2 else []) ++
    ").\n".toList

/-- The line `network(...)` (libhfst/src/implementations/HfstBasicTransducer.cc:961). -/
def networkLine (name : Str) : Str := "network(".toList ++ name ++ ").\n".toList

/-- `write_in_prolog_format(FILE*, ...)` (libhfst/src/implementations/HfstBasicTransducer.cc:948-1005; the ostream
variant at 1009-1066 differs only in how weights are printed).  The order of the symbols and final states (the code
goes through a sorted set and a sorted map) is left open. -/
def write (showW : Int → Str) (ww : Bool) (name : Str) (g : Graph) : Outcome Str :=
  if ',' ∈ name then .throws
  else .ok (networkLine name ++ ((unusedSymbols g).map (symbolLine name)).flatten ++
    (g.states.zipIdx.flatMap fun e => e.1.map (arcLine showW ww name e.2)).flatten ++
    (g.finals.map (finalLine showW ww name)).flatten)

/-- `strip_quotes_from_both_sides` (libhfst/src/implementations/HfstBasicTransducer.cc:1070-1080); `none` is `false`. -/
def stripQuotes (s : Str) : Option Str :=
  if s.length < 3 then none
  else if s.head? ≠ some '"' ∨ s.getLast? ≠ some '"' then none
  else some (s.drop 1).dropLast

/-- `strip_ending_parenthesis_and_comma` (libhfst/src/implementations/HfstBasicTransducer.cc:1084-1093); `none` is
`false`. -/
def stripEnd (s : Str) : Option Str :=
  if s.length < 3 then none
  else if s[s.length - 2]? ≠ some ')' ∨ s[s.length - 1]? ≠ some '.' then none
  else some (s.take (s.length - 2))

/-- The loop of `get_positions_of_unescaped_char`; `prev` is the character before (none at the start)
(libhfst/src/implementations/HfstBasicTransducer.cc:1116-1134). -/
def positionsGo (c esc : Char) : Option Char → Nat → Str → List Nat
  | _, _, [] => []
  | prev, i, d :: s =>
    if d = c ∧ prev ≠ some esc then i :: positionsGo c esc (some d) (i + 1) s
    else positionsGo c esc (some d) (i + 1) s

/-- `get_positions_of_unescaped_char` (libhfst/src/implementations/HfstBasicTransducer.cc:1116-1134). -/
def positions (s : Str) (c esc : Char) : List Nat := positionsGo c esc none 0 s

/-- `get_prolog_arc_symbols` (libhfst/src/implementations/HfstBasicTransducer.cc:1140-1201); `none` is `false`. -/
def getArcSymbols (s : Str) : Option (Sym × Sym) :=
  match positions s '"' '\\' with
  | [q0, q1] =>
    if q0 ≠ 0 ∨ q1 ≠ s.length - 1 then none
    else
      let x := deprologize ((s.drop (q0 + 1)).take (q1 - q0 - 1))
      let y := if x = unknown then identity else x
      some (y, y)
  | [q0, q1, q2, q3] =>
    if q0 ≠ 0 ∨ q3 ≠ s.length - 1 then none
    else if q2 - q1 ≠ 2 then none
    else if s[q1 + 1]? ≠ some ':' then none
    else some (deprologize ((s.drop (q0 + 1)).take (q1 - q0 - 1)), deprologize ((s.drop (q2 + 1)).take (q3 - q2 - 1)))
  | _ => none

/-- `extract_weight` (libhfst/src/implementations/HfstBasicTransducer.cc:1203-1239): the text without the weight, and the
weight; `none` is `false`. -/
def extractWeight (readW : Str → Option Int) (s : Str) : Option (Str × Int) :=
  match findLast s '"', findLast s ' ' with
  | none, _ => none
  | some _, none => some (s, 0)
  | some q, some p =>
    if q > p then some (s, 0)
    else if q + 2 = p ∧ p < s.length - 1 then
      match readW (s.drop (p + 1)) with
      | none => none
      | some w => some (s.take (p - 1), w)
    else none

/-- One piece of a `sscanf` format: a literal character, blanks, `%[^...]`, or `%s` (C standard; used in
libhfst/src/implementations/HfstBasicTransducer.cc:1101, 1251, 1313, 1321, 1353). -/
inductive Dir where
  | lit (c : Char)
  | blank
  | notIn (cs : List Char)
  | word

/-- `sscanf`: the fields converted before the first failure (C standard). -/
def sscanf : List Dir → Str → List Str
  | [], _ => []
  | .lit c :: ds, s =>
    match s with
    | d :: r => if d = c then sscanf ds r else []
    | [] => []
  | .blank :: ds, s => sscanf ds (s.dropWhile isSpace)
  | .notIn cs :: ds, s =>
    let f := s.takeWhile fun c => c ∉ cs
    if f = [] then [] else f :: sscanf ds (s.dropWhile fun c => c ∉ cs)
  | .word :: ds, s =>
    let r := s.dropWhile isSpace
    let f := r.takeWhile fun c => !isSpace c
    if f = [] then [] else f :: sscanf ds (r.dropWhile fun c => !isSpace c)

/-- Literal text in a format (C standard). -/
def lits (s : Str) : List Dir := s.map Dir.lit

/-- `"network(%s"` (libhfst/src/implementations/HfstBasicTransducer.cc:1101). -/
def networkFormat : List Dir := lits "network(".toList ++ [.word]

/-- `"arc(%[^,], %[^,], %[^,], %[^\t\n]"` (libhfst/src/implementations/HfstBasicTransducer.cc:1251). -/
def arcFormat : List Dir :=
  lits "arc(".toList ++ [.notIn [','], .lit ',', .blank, .notIn [','], .lit ',', .blank, .notIn [','], .lit ',', .blank,
    .notIn ['\t', '\n']]

/-- `"final(%[^,], %[^)])."` (libhfst/src/implementations/HfstBasicTransducer.cc:1313). -/
def finalFormat1 : List Dir :=
  lits "final(".toList ++ [.notIn [','], .lit ',', .blank, .notIn [')'], .lit ')', .lit '.']

/-- `"final(%[^,], %[^,], %[^)])."` (libhfst/src/implementations/HfstBasicTransducer.cc:1321). -/
def finalFormat2 : List Dir :=
  lits "final(".toList ++ [.notIn [','], .lit ',', .blank, .notIn [','], .lit ',', .blank, .notIn [')'], .lit ')',
    .lit '.']

/-- `"symbol(%[^,], %s"` (libhfst/src/implementations/HfstBasicTransducer.cc:1353). -/
def symbolFormat : List Dir := lits "symbol(".toList ++ [.notIn [','], .lit ',', .blank, .word]

/-- A field does not fit into its buffer of 100 characters (libhfst/src/implementations/HfstBasicTransducer.cc:1100,
1246-1249, 1297-1299, 1351-1352). -/
def overflows (fs : List Str) : Bool := fs.any fun f => 100 ≤ f.length

/-- `parse_prolog_network_line` (libhfst/src/implementations/HfstBasicTransducer.cc:1095-1112): the name. -/
def parseNetwork (line : Str) : Outcome (Option Str) :=
  let fs := sscanf networkFormat line
  if overflows fs then .undefined
  else match fs with
    | [n] => .ok (stripEnd n)
    | _ => .ok none

/-- `parse_prolog_arc_line` (libhfst/src/implementations/HfstBasicTransducer.cc:1241-1290); `ok none` is `false`.  When
fewer than four fields are converted the code makes a string from an uninitialised buffer before it looks at the number
of fields; `junk` is what it finds there (the model assumes that a NUL is found). -/
def parseArc (readW : Str → Option Int) (junk name : Str) (g : Graph) (line : Str) : Outcome (Option Graph) :=
  let fs := sscanf arcFormat line
  if overflows fs then .undefined
  else match stripEnd (fs[3]?.getD junk) with
    | none => .ok none
    | some symbol =>
      match fs with
      | [n, s, t, _] =>
        if n ≠ name then .ok none
        else match atoi s, atoi t with
          | some source, some target =>
            match extractWeight readW symbol with
            | none => .ok none
            | some (symbol, w) =>
              match getArcSymbols symbol with
              | none => .ok none
              | some (i, o) => if i = [] ∨ o = [] then .throws else .ok (some (g.addTransition source ⟨target, i, o, w⟩))
          | _, _ => .undefined
      | _ => .ok none

/-- `parse_prolog_final_line` (libhfst/src/implementations/HfstBasicTransducer.cc:1292-1344). -/
def parseFinal (readW : Str → Option Int) (name : Str) (g : Graph) (line : Str) : Outcome (Option Graph) :=
  let commas := line.count ','
  if commas = 1 then
    let fs := sscanf finalFormat1 line
    if overflows fs then .undefined
    else match fs with
      | [n, s] =>
        if n ≠ name then .ok none
        else match atoi s with
          | some s => .ok (some (g.setFinal s 0))
          | none => .undefined
      | _ => .ok none
  else if commas = 2 then
    let fs := sscanf finalFormat2 line
    if overflows fs then .undefined
    else match fs with
      | [n, s, wt] =>
        match readW wt with
        | none => .ok none
        | some w =>
          if n ≠ name then .ok none
          else match atoi s with
            | some s => .ok (some (g.setFinal s w))
            | none => .undefined
      | _ => .ok none
  else .ok none

/-- `parse_prolog_symbol_line` (libhfst/src/implementations/HfstBasicTransducer.cc:1346-1372). -/
def parseSymbol (name : Str) (g : Graph) (line : Str) : Outcome (Option Graph) :=
  let fs := sscanf symbolFormat line
  if overflows fs then .undefined
  else match fs with
    | [n, x] =>
      if n ≠ name then .ok none
      else match (stripEnd x).bind stripQuotes with
        | none => .ok none
        | some y => .ok (some (g.addSymbol (deprologize y)))
    | _ => .ok none

/-- One line after the first: an arc, a final state or a symbol, tried in this order
(libhfst/src/implementations/HfstBasicTransducer.cc:1475-1482). -/
def parseLine (readW : Str → Option Int) (junk name : Str) (g : Graph) (line : Str) : Outcome Graph :=
  match parseArc readW junk name g line with
  | .undefined => .undefined
  | .throws => .throws
  | .ok (some g') => .ok g'
  | .ok none =>
    match parseFinal readW name g line with
    | .undefined => .undefined
    | .throws => .throws
    | .ok (some g') => .ok g'
    | .ok none =>
      match parseSymbol name g line with
      | .undefined => .undefined
      | .throws => .throws
      | .ok (some g') => .ok g'
      | .ok none => .throws

/-- `strip_newlines` (libhfst/src/implementations/HfstBasicTransducer.cc:1374-1386). -/
def stripNewlines (s : Str) : Str := (s.reverse.dropWhile fun c => c = '\n' || c = '\r').reverse

/-- The loop over the lines after the first (libhfst/src/implementations/HfstBasicTransducer.cc:1459-1483).  The first
argument bounds the number of lines. -/
def readLoop (readW : Str → Option Int) (junk name : Str) : Nat → Graph → File → Outcome (Graph × File)
  | 0, _, _ => .undefined
  | n + 1, g, f =>
    match fgets 255 f with
    | (none, f') => .ok (g, f')
    | (some line, f') =>
      let l := stripNewlines line
      if l = [] then .ok (g, f')
      else match parseLine readW junk name g l with
        | .ok g' => readLoop readW junk name n g' f'
        | .throws => .throws
        | .undefined => .undefined

/-- The first line that is not a comment (libhfst/src/implementations/HfstBasicTransducer.cc:1430-1450); the code throws
at the end of the file. -/
def firstLine : Nat → File → Option (Str × File)
  | 0, _ => none
  | n + 1, f =>
    match fgets 255 f with
    | (none, _) => none
    | (some line, f') =>
      let l := stripNewlines line
      if l.head? = some '#' then firstLine n f' else some (l, f')

/-- `read_in_prolog_format(FILE*, ...)` (libhfst/src/implementations/HfstBasicTransducer.cc:1422-1485, 1494-1499): the name, the
graph and the file. -/
def read (readW : Str → Option Int) (junk : Str) (f : File) : Outcome (Str × Graph × File) :=
  match firstLine (f.rest.length + 1) f with
  | none => .throws
  | some (line, f') =>
    match parseNetwork line with
    | .undefined => .undefined
    | .throws => .throws
    | .ok none => .throws
    | .ok (some name) =>
      match readLoop readW junk name (f'.rest.length + 1) Graph.init f' with
      | .ok (g, f'') => .ok (name, g, f'')
      | .throws => .throws
      | .undefined => .undefined

/-- `read_in_prolog_format(istream&, ...)` (libhfst/src/implementations/HfstBasicTransducer.cc:1391-1411, 1422-1485).
`get_stripped_line` gives a line only if `getline` met the end of the stream (`!is.getline(line, 255).eof()` at 1398), so
only a text of one line without a newline is accepted; the line after it is empty. -/
def readStream (f : File) : Outcome (Str × Graph) :=
  let r := takeLine 255 f.rest
  if !r.2.2 then .throws
  else if (stripNewlines r.1).head? = some '#' then .throws
  else match parseNetwork (stripNewlines r.1) with
    | .undefined => .undefined
    | .throws => .throws
    | .ok none => .throws
    | .ok (some name) => .ok (name, Graph.init)

end Hfst.Prolog
