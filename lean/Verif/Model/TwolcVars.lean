import Verif.Model.Graph

/-!
# Variables in two-level rules

The first pass of the compiler for two-level grammars (`libhfst/src/parsers/htwolcpre1-parser.yy`) writes a rule with variables once for each
combination of values.  The combinations are gone through by the iterators of `libhfst/src/parsers/variable_src`.  Modelled are these
iterators, `RuleVariables`, `RuleSymbolVector` and the action of the parser for a rule.  The lexer, the grammar and the later passes are not.
An iterator into a vector is the vector and a position; moving it behind the end, or reading what the end points to, is undefined.
-/
namespace Hfst.Twolc
open Hfst.Basic (Outcome)

/-- `VariableValueMap`, a `std::map` (`VariableDefs.h` 33): pairs in the order of their keys. -/
abbrev Assigned := List (Str × Str)

/-- `vvm->operator[](variable) = value` (`VariableValueIterator.h` 94). -/
def put : Assigned → Str → Str → Assigned
  | [], k, v => [(k, v)]
  | e :: r, k, v => if k < e.1 then (k, v) :: e :: r else if k = e.1 then (k, v) :: r else e :: put r k v

/-- `HandyMap::has_key` and `get_value` (`HfstTwolcDefs.h` 37–44). -/
def find? (m : Assigned) (k : Str) : Option Str := (m.find? fun e => e.1 == k).map (·.2)

/-- `VariableValues` (`VariableValues.h` 30–45): a variable and its values. -/
structure Values where
  name : Str
  values : List Str
  deriving DecidableEq, Repr

/-- What all iterators over variables have in common: `operator++`, `operator==` and `set_values` (`ConstContainerIterator.h` 95–138,
`VariableValueIterator.h` 67–94).  `it + 1` (`ConstContainerIterator.h` 123–128) is `++` on a copy, so it is `next` as well. -/
class Iter (α : Type) where
  next : α → Outcome α
  eq : α → α → Bool
  set : α → Assigned → Outcome Assigned

/-- `VariableValueIterator` (`VariableValueIterator.h` 29–96).  The vector it points into is part of it. -/
structure ValueIt where
  vec : Values
  pos : Nat
  deriving DecidableEq, Repr

/-- `operator++` (`VariableValueIterator.h` 75–76), `operator==` (67–68), `set_values` (93–94). -/
instance : Iter ValueIt where
  next it := if it.pos < it.vec.values.length then .ok { it with pos := it.pos + 1 } else .undefined
  eq a b := decide (a.vec.name = b.vec.name ∧ a.pos = b.pos)
  set it m := match it.vec.values[it.pos]? with
    | some v => .ok (put m it.vec.name v)
    | none => .undefined

/-- `VariableValues::begin` (`VariableValues.cc` 22–23). -/
def Values.first (v : Values) : ValueIt := ⟨v, 0⟩

/-- `VariableValues::end` (`VariableValues.cc` 25–26). -/
def Values.last (v : Values) : ValueIt := ⟨v, v.values.length⟩

/-- `ConstContainerIterator` (`ConstContainerIterator.h` 32–40): `iterator_vector`, `begin_iterator_vector`, `end_iterator_vector`. -/
structure ConstIt (α : Type) where
  cur : List α
  first : List α
  last : List α
  deriving DecidableEq, Repr

/-- The loop of `operator++` (`ConstContainerIterator.h` 105–116): the new `iterator_vector` from the place it has come to, and
`found_a_non_final_iterator`.  The three vectors have the same length, so `at` throws nothing. -/
def advance {α : Type} [Iter α] : List α → List α → List α → Outcome (List α × Bool)
  | c :: cs, b :: bs, e :: es => (Iter.next c).bind fun c' =>
      if Iter.eq c' e then (advance cs bs es).bind fun r => .ok (b :: r.1, r.2) else .ok (c' :: cs, true)
  | cs, _, _ => .ok (cs, false)

/-- `==` on vectors of iterators (`ConstContainerIterator.h` 96). -/
def allEq {α : Type} [Iter α] : List α → List α → Bool
  | [], [] => true
  | a :: as, b :: bs => Iter.eq a b && allEq as bs
  | _, _ => false

/-- The loop of `set_values` (`ConstContainerIterator.h` 133–137). -/
def setAll {α : Type} [Iter α] : List α → Assigned → Outcome Assigned
  | [], m => .ok m
  | a :: as, m => (Iter.set a m).bind fun m' => setAll as m'

/-- `operator++` of `ConstContainerIterator` (`ConstContainerIterator.h` 103–120). -/
def ConstIt.succ {α : Type} [Iter α] (it : ConstIt α) : Outcome (ConstIt α) :=
  (advance it.cur it.first it.last).bind fun r => .ok { it with cur := if r.2 then r.1 else it.last }

/-- `ConstContainerIterator` (`ConstContainerIterator.h` 95–96, 103–120, 131–138). -/
instance {α : Type} [Iter α] : Iter (ConstIt α) where
  next := ConstIt.succ
  eq a b := allEq a.cur b.cur
  set it m := setAll it.cur m

/-- A call for each element of a vector, in a `for` loop (`ConstContainerIterator.h` 45–51). -/
def each {τ α : Type} (f : τ → Outcome α) : List τ → Outcome (List α)
  | [] => .ok []
  | t :: ts => (f t).bind fun a => (each f ts).bind fun as => .ok (a :: as)

/-- `ConstContainerIterator::begin` (`ConstContainerIterator.h` 42–53). -/
def beginOf {τ α : Type} (b e : τ → Outcome α) (v : List τ) : Outcome (ConstIt α) :=
  (each b v).bind fun bs => (each e v).bind fun es => .ok ⟨bs, bs, es⟩

/-- `ConstContainerIterator::end` (`ConstContainerIterator.h` 54–65). -/
def endOf {τ α : Type} (b e : τ → Outcome α) (v : List τ) : Outcome (ConstIt α) :=
  (each b v).bind fun bs => (each e v).bind fun es => .ok ⟨es, bs, es⟩

/-- `VariableBlock` (`VariableBlock.h` 33–51): the variables of a block. -/
abbrev Block := List Values

/-- `FreelyVariableBlock::begin` (`VariableContainer.h` 38–39, `VariableBlock.h` 55–56). -/
def freelyBegin (b : Block) : Outcome (ConstIt ValueIt) := beginOf (fun v => .ok v.first) (fun v => .ok v.last) b

/-- `FreelyVariableBlock::end` (`VariableContainer.h` 42–43, `VariableBlock.h` 55–56). -/
def freelyEnd (b : Block) : Outcome (ConstIt ValueIt) := endOf (fun v => .ok v.first) (fun v => .ok v.last) b

/-- `MatchedConstContainerIterator` (`MatchedConstContainerIterator.h` 30–31). -/
structure MatchedIt where
  base : ConstIt ValueIt
  deriving DecidableEq, Repr

/-- The constructor (`MatchedConstContainerIterator.h` 35–55).  `throws` is `UnequalSetSize`. -/
def matchedOf (it : ConstIt ValueIt) : Outcome MatchedIt :=
  let sizes := List.zipWith (fun e b => e.pos - b.pos) it.last it.first
  if sizes.all fun s => s == sizes.headD 0 then .ok ⟨it⟩ else .throws

/-- `operator++` (`MatchedConstContainerIterator.h` 58–65); `==` and `set_values` are inherited. -/
instance : Iter MatchedIt where
  next it := (each Iter.next it.base.cur).bind fun cs => .ok ⟨{ it.base with cur := cs }⟩
  eq a b := Iter.eq a.base b.base
  set it m := Iter.set it.base m

/-- `MatchedVariableBlock::begin` (`VariableContainer.h` 38–39, `VariableBlock.h` 60–62). -/
def matchedBegin (b : Block) : Outcome MatchedIt := (freelyBegin b).bind matchedOf

/-- `MatchedVariableBlock::end` (`VariableContainer.h` 42–43, `VariableBlock.h` 60–62). -/
def matchedEnd (b : Block) : Outcome MatchedIt := (freelyEnd b).bind matchedOf

/-- `MixedConstContainerIterator` (`MixedConstContainerIterator.h` 31–32). -/
structure MixedIt where
  base : ConstIt ValueIt
  deriving DecidableEq, Repr

/-- `didnt_end` (`MixedConstContainerIterator.h` 35–45). -/
def didntEnd (it : ConstIt ValueIt) : Bool := (List.zipWith (fun c e => !(Iter.eq c e)) it.cur it.last).any id

/-- The loop of `equal_indices` (`MixedConstContainerIterator.h` 49–59), with the set of indices. -/
def equalIndices : List Nat → List Nat → Bool
  | _, [] => false
  | seen, i :: is => if i ∈ seen then true else equalIndices (i :: seen) is

/-- `didnt_end() && equal_indices()` (`MixedConstContainerIterator.h` 66, 73). -/
def toSkip (it : ConstIt ValueIt) : Bool :=
  didntEnd it && equalIndices [] (List.zipWith (fun c b => c.pos - b.pos) it.cur it.first)

/-- The `while` loops (`MixedConstContainerIterator.h` 66–67, 72–73).  The number bounds the rounds; running out of it counts as undefined.  The
loop of the constructor calls the `operator++` with the other loop, which does the same rounds. -/
def skip : Nat → ConstIt ValueIt → Outcome (ConstIt ValueIt)
  | 0, _ => .undefined
  | n + 1, it => if toSkip it then it.succ.bind (skip n) else .ok it

/-- Rounds that are enough for `skip`: the number of combinations and one more.  Not in the code. -/
def rounds (it : ConstIt ValueIt) : Nat := (it.last.map (·.pos)).prod + 1

/-- The constructor (`MixedConstContainerIterator.h` 63–68). -/
def mixedOf (it : ConstIt ValueIt) : Outcome MixedIt := (skip (rounds it) it).bind fun i => .ok ⟨i⟩

/-- `operator++` (`MixedConstContainerIterator.h` 70–75); `==` and `set_values` are inherited. -/
instance : Iter MixedIt where
  next it := it.base.succ.bind fun i => (skip (rounds it.base) i).bind fun j => .ok ⟨j⟩
  eq a b := Iter.eq a.base b.base
  set it m := Iter.set it.base m

/-- `MixedVariableBlock::begin` (`VariableContainer.h` 38–39, `VariableBlock.h` 66–67). -/
def mixedBegin (b : Block) : Outcome MixedIt := (freelyBegin b).bind mixedOf

/-- `MixedVariableBlock::end` (`VariableContainer.h` 42–43, `VariableBlock.h` 66–67). -/
def mixedEnd (b : Block) : Outcome MixedIt := (freelyEnd b).bind mixedOf

/-- `Matcher` (`VariableDefs.h` 45). -/
inductive Matcher where
  | freely
  | matched
  | mixed
  deriving DecidableEq, Repr

/-- `RuleVariables` (`RuleVariables.h` 31–37): `current_variable_block`, `freely_blocks`, `matched_blocks`, `mixed_blocks`. -/
structure RuleVariables where
  current : Block := []
  freely : List Block := []
  matched : List Block := []
  mixed : List Block := []
  deriving DecidableEq, Repr

/-- `RuleVariables::set_variable` (`RuleVariables.cc` 20–25). -/
def RuleVariables.setVariable (rv : RuleVariables) (x : Str) : RuleVariables := { rv with current := rv.current ++ [⟨x, []⟩] }

/-- `current_variable_block.back().push_back(value)` (`RuleVariables.cc` 31). -/
def pushBack : Block → Str → Block
  | [], _ => []
  | [v], s => [{ v with values := v.values ++ [s] }]
  | v :: w :: r, s => v :: pushBack (w :: r) s

/-- `RuleVariables::add_value` (`RuleVariables.cc` 27–32).  `throws` is `EmptyContainer`. -/
def RuleVariables.addValue (rv : RuleVariables) (s : Str) : Outcome RuleVariables :=
  if rv.current = [] then .throws else .ok { rv with current := pushBack rv.current s }

/-- The loop of `RuleVariables::add_values` (`RuleVariables.cc` 38–40). -/
def RuleVariables.addEach (rv : RuleVariables) : List Str → Outcome RuleVariables
  | [] => .ok rv
  | s :: r => (rv.addValue s).bind fun rv' => rv'.addEach r

/-- `RuleVariables::add_values` (`RuleVariables.cc` 34–41).  `throws` is `EmptyContainer`. -/
def RuleVariables.addValues (rv : RuleVariables) (l : List Str) : Outcome RuleVariables :=
  if rv.current = [] then .throws else rv.addEach l

/-- `RuleVariables::set_matcher` (`RuleVariables.cc` 43–58) with the constructor of `VariableBlock` (`VariableBlock.h` 40–50).  `throws` is
`EmptyContainer`. -/
def RuleVariables.setMatcher (rv : RuleVariables) (k : Matcher) : Outcome RuleVariables :=
  if rv.current.any fun v => v.values.isEmpty then .throws
  else match k with
    | .freely => .ok { rv with freely := rv.freely ++ [rv.current], current := [] }
    | .matched => .ok { rv with matched := rv.matched ++ [rv.current], current := [] }
    | .mixed => .ok { rv with mixed := rv.mixed ++ [rv.current], current := [] }

/-- `RuleVariables::clear` (`RuleVariables.cc` 66–71). -/
def RuleVariables.clear (rv : RuleVariables) : RuleVariables := { rv with freely := [], matched := [], mixed := [] }

/-- `RuleVariables::empty` (`RuleVariables.cc` 73–79): `&&` looks at the next container only if the one before is at its end. -/
def RuleVariables.empty (rv : RuleVariables) : Outcome Bool :=
  (beginOf freelyBegin freelyEnd rv.freely).bind fun fb => (endOf freelyBegin freelyEnd rv.freely).bind fun fe =>
    if Iter.eq fb fe then
      (beginOf matchedBegin matchedEnd rv.matched).bind fun mb => (endOf matchedBegin matchedEnd rv.matched).bind fun me =>
        if Iter.eq mb me then
          (beginOf mixedBegin mixedEnd rv.mixed).bind fun xb => (endOf mixedBegin mixedEnd rv.mixed).bind fun xe => .ok (Iter.eq xb xe)
        else .ok false
    else .ok false

/-- `RuleVariablesConstIterator` (`RuleVariablesConstIterator.h` 28–45): three iterators with their beginnings and ends. -/
structure RuleIt where
  f : ConstIt (ConstIt ValueIt)
  ma : ConstIt MatchedIt
  mi : ConstIt MixedIt
  fBegin : ConstIt (ConstIt ValueIt)
  maBegin : ConstIt MatchedIt
  miBegin : ConstIt MixedIt
  fEnd : ConstIt (ConstIt ValueIt)
  maEnd : ConstIt MatchedIt
  miEnd : ConstIt MixedIt
  deriving DecidableEq, Repr

/-- `RuleVariablesConstIterator::begin` (`RuleVariablesConstIterator.cc` 19–29, 43–51). -/
def RuleVariables.first (rv : RuleVariables) : Outcome RuleIt :=
  (beginOf freelyBegin freelyEnd rv.freely).bind fun fb => (beginOf matchedBegin matchedEnd rv.matched).bind fun mb =>
    (beginOf mixedBegin mixedEnd rv.mixed).bind fun xb => (endOf freelyBegin freelyEnd rv.freely).bind fun fe =>
      (endOf matchedBegin matchedEnd rv.matched).bind fun me => (endOf mixedBegin mixedEnd rv.mixed).bind fun xe =>
        .ok ⟨fb, mb, xb, fb, mb, xb, fe, me, xe⟩

/-- `RuleVariablesConstIterator::end` (`RuleVariablesConstIterator.cc` 31–51). -/
def RuleVariables.last (rv : RuleVariables) : Outcome RuleIt :=
  (beginOf freelyBegin freelyEnd rv.freely).bind fun fb => (beginOf matchedBegin matchedEnd rv.matched).bind fun mb =>
    (beginOf mixedBegin mixedEnd rv.mixed).bind fun xb => (endOf freelyBegin freelyEnd rv.freely).bind fun fe =>
      (endOf matchedBegin matchedEnd rv.matched).bind fun me => (endOf mixedBegin mixedEnd rv.mixed).bind fun xe =>
        .ok ⟨fe, me, xe, fb, mb, xb, fe, me, xe⟩

/-- `RuleVariablesConstIterator::operator++` (`RuleVariablesConstIterator.cc` 77–100). -/
def RuleIt.next (it : RuleIt) : Outcome RuleIt :=
  (Iter.next it.f).bind fun f' =>
    if Iter.eq f' it.fEnd then
      (Iter.next it.ma).bind fun ma' =>
        if Iter.eq ma' it.maEnd then
          (Iter.next it.mi).bind fun mi' =>
            if Iter.eq mi' it.miEnd then .ok { it with f := it.fEnd, ma := it.maEnd, mi := it.miEnd }
            else .ok { it with mi := mi', ma := it.maBegin, f := it.fBegin }
        else .ok { it with ma := ma', f := it.fBegin }
    else .ok { it with f := f' }

/-- `RuleVariablesConstIterator::operator==` (`RuleVariablesConstIterator.cc` 68–71). -/
def RuleIt.eq (a b : RuleIt) : Bool := Iter.eq a.f b.f && Iter.eq a.ma b.ma && Iter.eq a.mi b.mi

/-- `RuleVariablesConstIterator::set_values` (`RuleVariablesConstIterator.cc` 109–114). -/
def RuleIt.set (it : RuleIt) (m : Assigned) : Outcome Assigned :=
  (Iter.set it.f m).bind fun m1 => (Iter.set it.ma m1).bind fun m2 => Iter.set it.mi m2

/-- The mark of a rule name (`RuleSymbolVector.cc` 32). -/
def nameMark : Str := "__HFST_TWOLC_RULE_NAME".toList

/-- A space inside a symbol (`RuleSymbolVector.cc` 38, 45). -/
def spaceMark : Str := "__HFST_TWOLC_SPACE".toList

/-- `symbol.find(p) != npos` (`RuleSymbolVector.cc` 32). -/
def occursIn (p : Str) : Str → Bool
  | [] => p.isEmpty
  | c :: r => p.isPrefixOf (c :: r) || occursIn p r

/-- `symbol.insert(symbol.size()-1, s)` (`RuleSymbolVector.cc` 36–38, 43–45). -/
def insertBeforeLast (symbol s : Str) : Str := symbol.take (symbol.length - 1) ++ s ++ symbol.drop (symbol.length - 1)

/-- One round of the loop of `RuleSymbolVector::replace_variables` (`RuleSymbolVector.cc` 31–48). -/
def replaceSymbol (m : Assigned) (symbol : Str) : Str :=
  let symbol := if occursIn nameMark symbol then
      m.foldl (fun s e => insertBeforeLast s (spaceMark ++ e.1 ++ '=' :: e.2))
        (if m = [] then symbol else insertBeforeLast symbol (spaceMark ++ "SUBCASE:".toList))
    else symbol
  (match find? m symbol with
    | some v => v
    | none => symbol) ++ [' ']

/-- `RuleSymbolVector::replace_variables` (`RuleSymbolVector.cc` 23–51). -/
def replaceVariables (m : Assigned) (symbols : List Str) : Str := symbols.flatMap (replaceSymbol m)

/-- The loop over the combinations (`htwolcpre1-parser.yy` 233–239): the values set last and what was written.  The number bounds the rounds;
running out of it counts as undefined. -/
def writeAll (symbols : List Str) (stop : RuleIt) : Nat → RuleIt → Assigned → Str → Outcome (Assigned × Str)
  | 0, _, _, _ => .undefined
  | n + 1, it, m, out =>
    if it.eq stop then .ok (m, out)
    else (it.set m).bind fun m' => it.next.bind fun it' => writeAll symbols stop n it' m' (out ++ replaceVariables m' symbols)

/-- The `try` block of the action for a rule (`htwolcpre1-parser.yy` 229–240).  `throws` is `UnequalSetSize`. -/
def writeRule (fuel : Nat) (rv : RuleVariables) (symbols : List Str) (m : Assigned) : Outcome (Assigned × Str) :=
  rv.empty.bind fun none =>
    if none then .ok (m, replaceVariables m symbols)
    else rv.first.bind fun b => rv.last.bind fun e => writeAll symbols e fuel b m []

/-- One variable in the text of a rule: the variable, and its values or names of sets of values (`htwolcpre1-parser.yy` 327–337). -/
abbrev Declared := Str × List Str

/-- The text of a rule (`htwolcpre1-parser.yy` 221–222): its symbols up to the variables, which are in `rule_symbol_vector`, and its blocks of
variables, each with its matcher (311–325).  The symbols are as `reduce_queue` (628–671) leaves them. -/
structure RuleText where
  symbols : List Str
  blocks : List (Matcher × List Declared)

/-- The variables of the parser that matter here (`htwolcpre1-parser.yy` 84–87, 103), and what was written to `output`. -/
structure Parser where
  sets : List (Str × List Str)
  values : Assigned := []
  variables : RuleVariables := {}
  output : Str := []
  deriving DecidableEq, Repr

/-- The loop of `set_variable_values` (`htwolcpre1-parser.yy` 549–557). -/
def addDeclared (sets : List (Str × List Str)) (rv : RuleVariables) : List Str → Outcome RuleVariables
  | [] => .ok rv
  | s :: r => (match Hfst.Basic.mapGet sets s with
      | some l => rv.addValues l
      | none => rv.addValue s).bind fun rv' => addDeclared sets rv' r

/-- `set_variable_values` (`htwolcpre1-parser.yy` 546–559). -/
def setVariableValues (sets : List (Str × List Str)) (rv : RuleVariables) (d : Declared) : Outcome RuleVariables :=
  addDeclared sets (rv.setVariable d.1) d.2

/-- `RULE_VARIABLE_INITIALIZATION_LIST` (`htwolcpre1-parser.yy` 324–331). -/
def initializeAll (sets : List (Str × List Str)) (rv : RuleVariables) : List Declared → Outcome RuleVariables
  | [] => .ok rv
  | d :: r => (setVariableValues sets rv d).bind fun rv' => initializeAll sets rv' r

/-- `RULE_VARIABLE_BLOCKS` (`htwolcpre1-parser.yy` 314–322).  The queue of matchers (298–305) holds just the matcher of the block that has been
read. -/
def readBlocks (sets : List (Str × List Str)) (rv : RuleVariables) : List (Matcher × List Declared) → Outcome RuleVariables
  | [] => .ok rv
  | b :: r => (initializeAll sets rv b.2).bind fun rv1 => (rv1.setMatcher b.1).bind fun rv2 => readBlocks sets rv2 r

/-- The action for a rule (`htwolcpre1-parser.yy` 221–254) with those for its variables.  `none`: an error is reported and `HfstException` is
thrown (242–249), which the callers catch.  `throws` is `EmptyContainer`, which no code in /repo catches.  A rule with a regular expression
in its centre (255–264) is like a rule without variables. -/
def rule (fuel : Nat) (p : Parser) (r : RuleText) : Outcome (Option Parser) :=
  (readBlocks p.sets p.variables r.blocks).bind fun rv =>
    match writeRule fuel rv r.symbols p.values with
    | .ok w => .ok (some { p with values := [], variables := rv.clear, output := p.output ++ w.2 })
    | .throws => .ok none
    | .undefined => .undefined

/-- `RULE_LIST` (`htwolcpre1-parser.yy` 218–219). -/
def ruleList (fuel : Nat) (p : Parser) : List RuleText → Outcome (Option Parser)
  | [] => .ok (some p)
  | r :: rs => (rule fuel p r).bind fun
      | some p' => ruleList fuel p' rs
      | none => .ok none

end Hfst.Twolc
