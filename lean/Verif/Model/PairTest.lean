import Verif.Model.Graph

/-!
# hfst-pair-test

Model of tools/src/hfst-pair-test.cc: the test of a compiled two-level grammar with pair strings.

Simplifications: the tokenizers are parameters (`none`: `UnescapedColsFound`, after which the program ends with exit code 1); of the
messages only the names of the rules that reject a string are modelled; characters are code points.
-/
namespace Hfst.PairTest
open Hfst.StdString Hfst.Basic

/-- A string of symbol pairs (`StringPairVector`, used in tools/src/hfst-pair-test.cc:274). -/
abbrev PairString := List (Sym × Sym)

/-- `get_target`, the loop and what follows it (tools/src/hfst-pair-test.cc:245-269); `none` is the state -1.  The third argument is
`identity_target`. -/
def targetLoop (known : List Sym) (p : Sym × Sym) : List Arc → Option Nat → Option Nat
  | [], idt => if p.1 = p.2 ∧ p.1 ∉ known then idt else none
  | a :: as, idt =>
    if a.inp = p.1 ∧ a.out = p.2 then some a.target
    else targetLoop known p as (if a.inp = identity ∧ a.out = identity then some a.target else idt)

/-- `get_target` (tools/src/hfst-pair-test.cc:245-269). -/
def getTarget (known : List Sym) (t : Graph) (s : Nat) (p : Sym × Sym) : Option Nat := targetLoop known p (t.arcs s) none

/-- The loop of `test` for one rule (tools/src/hfst-pair-test.cc:280-293): the state reached. -/
def walk (known : List Sym) (t : Graph) : Nat → PairString → Option Nat
  | s, [] => some s
  | s, p :: ps =>
    match getTarget known t s p with
    | none => none
    | some s' => walk known t s' ps

/-- `is_final_state` (tools/src/hfst-pair-test.cc:271-272). -/
def isFinalState (t : Graph) (s : Nat) : Bool := (t.final s).isSome

/-- `test` for one rule: the exit code (tools/src/hfst-pair-test.cc:274-303). -/
def testRule (known : List Sym) (t : Graph) (positive : Bool) (p : PairString) : Nat :=
  match walk known t 0 p with
  | none => if positive then 1 else 0
  | some s =>
    if isFinalState t s && positive then 0
    else if positive then 1
    else if !isFinalState t s then 0
    else 1

/-- A rule and its name (the vectors `grammar` and `rule_names`, tools/src/hfst-pair-test.cc:504-525). -/
structure Rule where
  graph : Graph
  name : Str

/-- The variables of `test` for a grammar: both exit codes, and the names printed (tools/src/hfst-pair-test.cc:393-416). -/
structure Codes where
  pos : Nat := 0
  neg : Nat := 1
  names : List Str := []

/-- The body of the loop of `test` for a grammar (tools/src/hfst-pair-test.cc:398-416). -/
def testStep (known : List Sym) (positive : Bool) (p : PairString) (c : Codes) (r : Rule) : Codes :=
  let new := testRule known r.graph positive p
  { pos := if positive && c.pos = 0 then new else c.pos
    neg := if !positive && c.neg = 1 then new else c.neg
    names := if positive && new = 1 then c.names ++ [r.name] else c.names }

/-- `test` for a grammar: the exit code and the names of the rules printed (tools/src/hfst-pair-test.cc:385-441). -/
def testGrammar (known : List Sym) (grammar : List Rule) (positive : Bool) (p : PairString) : Nat × List Str :=
  let c := grammar.foldl (testStep known positive p) {}
  (if positive then c.pos else c.neg, c.names)

/-- `get_symbols` of the first rule (tools/src/hfst-pair-test.cc:467-480, 529-538). -/
def knownSymbols (grammar : List Rule) : List Sym :=
  match grammar with
  | [] => []
  | r :: _ => r.graph.symbolsUsed

/-- Cutting a line at the end of line (tools/src/hfst-pair-test.cc:557-566, 629-638). -/
def cutLine (l : Str) : Str := l.takeWhile (· ≠ '\n')

/-- `is_empty_or_comment` (tools/src/hfst-pair-test.cc:458-465). -/
def isEmptyOrComment : Str → Bool
  | [] => true
  | c :: cs => if c = ' ' ∨ c = '\t' then isEmptyOrComment cs else c = '!'

/-- The pair of a word boundary (tools/src/hfst-pair-test.cc:578-583). -/
def boundary : Sym × Sym := ("@#@".toList, epsilon)

/-- A pair string with the boundaries (tools/src/hfst-pair-test.cc:578-583, 694-699). -/
def withBoundaries (p : PairString) : PairString := boundary :: p ++ [boundary]

/-- The loop over the lines of `process_stream` without -X (tools/src/hfst-pair-test.cc:554-604): the exit code. -/
def linesLoop (tokenize : Str → Option PairString) (grammar : List Rule) (positive : Bool) : Nat → List Str → Nat
  | code, [] => code
  | code, l :: ls =>
    if isEmptyOrComment (cutLine l) then linesLoop tokenize grammar positive code ls
    else
      match tokenize (cutLine l) with
      | none => 1
      | some p =>
        let new := (testGrammar (knownSymbols grammar) grammar positive (withBoundaries p)).1
        linesLoop tokenize grammar positive (if code = 0 then new else code) ls

/-- `strip_space` (tools/src/hfst-pair-test.cc:482-493); the code finds the same piece by positions. -/
def stripSpace (l : Str) : Str :=
  ((l.dropWhile fun c => c = ' ' || c = '\t').reverse.dropWhile fun c => c = ' ' || c = '\t').reverse

/-- The mark of positive cases (tools/src/hfst-pair-test.cc:495-496). -/
def positiveMark : Str := "!!€".toList

/-- The mark of negative cases (tools/src/hfst-pair-test.cc:498-499). -/
def negativeMark : Str := "!!$".toList

/-- The case of a line with a mark (tools/src/hfst-pair-test.cc:495-499, 640-659). -/
def caseOf (mark line : Str) : Option Str :=
  if (stripSpace line).take mark.length = mark then some (stripSpace ((stripSpace line).drop mark.length)) else none

/-- The loop that collects the cases with -X (tools/src/hfst-pair-test.cc:626-664). -/
def collect : List Str × List Str → List Str → List Str × List Str
  | c, [] => c
  | c, l :: ls =>
    match caseOf positiveMark (cutLine l) with
    | some x => collect (c.1 ++ [x], c.2) ls
    | none =>
      match caseOf negativeMark (cutLine l) with
      | some x => collect (c.1, c.2 ++ [x]) ls
      | none => collect c ls

/-- The loops over the cases with -X (tools/src/hfst-pair-test.cc:681-720, 722-760); `none`: the program has ended. -/
def casesLoop (tokenize : Str → Str → Option PairString) (grammar : List Rule) (positive : Bool) : Nat → List Str → Option Nat
  | code, x :: y :: rest =>
    match tokenize x y with
    | none => none
    | some p =>
      let new := (testGrammar (knownSymbols grammar) grammar positive (withBoundaries p)).1
      casesLoop tokenize grammar positive (if code = 0 then new else code) rest
  | code, _ => some code

/-- `process_stream` with -X (tools/src/hfst-pair-test.cc:607-763): the exit code. -/
def xerox (tokenize : Str → Str → Option PairString) (grammar : List Rule) (lines : List Str) : Nat :=
  let c := collect ([], []) lines
  if c.1.length % 2 ≠ 0 then 1
  else if c.2.length % 2 ≠ 0 then 1
  else
    match casesLoop tokenize grammar true 0 c.1 with
    | none => 1
    | some code =>
      match casesLoop tokenize grammar false code c.2 with
      | none => 1
      | some code => code

/-- `process_stream` without -X: the exit code (tools/src/hfst-pair-test.cc:501-606). -/
def pairTest (tokenize : Str → Option PairString) (grammar : List Rule) (positive : Bool) (lines : List Str) : Nat :=
  linesLoop tokenize grammar positive 0 lines

end Hfst.PairTest
