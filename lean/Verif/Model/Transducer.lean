import Verif.Model.Harmonize

/-!
# Operations of `HfstTransducer`

Model of the operations in libhfst/src/HfstTransducer.cc and libhfst/src/HfstApply.cc that are made from other operations, for
the OpenFst back-end with tropical weights.

Simplifications common to this file:
* A `HfstTransducer` is represented by its `HfstBasicTransducer`; conversions between the two (libhfst/src/HfstTransducer.cc:
  5199-5340) are left out, except that every `HfstTransducer` has the three special symbols in its alphabet (`convert`).
* What OpenFst does is given by the functions of `Backend`.  The theorems assume only `Backend.Ok`.
* Both operands have the same type; with different types the operations throw.
* The global settings have their default values: `xerox_composition` and `flag_is_epsilon_in_composition` are off,
  `unknown_symbols_in_use` is on (libhfst/src/HfstTransducer.cc, global variables at the beginning).
* The name, the properties and the members `anonymous` and `is_trie` are left out.
-/
namespace Hfst.Trans
open Hfst.Basic

/-- The functions of OpenFst and of its wrapper that are used here: `minimize` and `determinize` (`optimize`), `ClosureFst`,
`Concat`, `Union`, `IntersectFst`, `Difference`, `Compose`, `ProjectFst`, `Invert`, `Equivalent`
(libhfst/src/implementations/TropicalWeightTransducer.cc:206-309, 1652-1686, 1871-1900, 2085-2190, 2508-2739). -/
structure Backend where
  optimize : Graph → Graph
  star : Graph → Graph
  concat : Graph → Graph → Graph
  disjunct : Graph → Graph → Graph
  intersect : Graph → Graph → Graph
  subtract : Graph → Graph → Graph
  compose : Graph → Graph → Graph
  projectInput : Graph → Graph
  projectOutput : Graph → Graph
  invert : Graph → Graph
  equivalent : Graph → Graph → Bool

/-- `HfstTransducer::is_special_symbol` (libhfst/src/HfstTransducer.cc:2984-2993). -/
def isSpecial (x : Sym) : Bool :=
  decide (4 ≤ x.length) && x.take 2 = ['@', '_'] && x.drop (x.length - 2) = ['_', '@']

/-- `insert_missing_symbols_to_alphabet_from` (libhfst/src/HfstTransducer.cc:3015-3041). -/
def insertMissing (g h : Graph) (onlySpecial : Bool) : Graph :=
  g.addSymbols (h.alphabet.filter fun x => decide (x ∉ g.alphabet) && (!onlySpecial || isSpecial x))

/-- What happens before two transducers are harmonized (libhfst/src/HfstApply.cc:377-388, libhfst/src/HfstTransducer.cc:
4270-4285). -/
def prepare (g h : Graph) (harm : Bool) : Graph × Graph :=
  let g := if harm then g else insertMissing g h false
  let h := if harm then h else insertMissing h g false
  let g := insertMissing g h true
  (g, insertMissing h g true)

/-- `apply` for operations with two operands (libhfst/src/HfstApply.cc:347-463; `harmonize_`, libhfst/src/HfstTransducer.cc:
507-594). -/
def apply (f : Graph → Graph → Graph) (g h : Graph) (harm : Bool) : Outcome Graph :=
  let p := prepare g h harm
  (harmonize p.1 p.2).bind fun r => .ok (f r.1 r.2)

/-- `concatenate` (libhfst/src/HfstTransducer.cc:5029-5054). -/
def concatenate (B : Backend) (g h : Graph) (harm : Bool := true) : Outcome Graph := apply B.concat g h harm

/-- `disjunct` (libhfst/src/HfstTransducer.cc:5121-5143). -/
def disjunct (B : Backend) (g h : Graph) (harm : Bool := true) : Outcome Graph := apply B.disjunct g h harm

/-- `intersect` (libhfst/src/HfstTransducer.cc:5145-5167). -/
def intersect (B : Backend) (g h : Graph) (harm : Bool := true) : Outcome Graph := apply B.intersect g h harm

/-- `subtract` (libhfst/src/HfstTransducer.cc:5169-5191). -/
def subtract (B : Backend) (g h : Graph) (harm : Bool := true) : Outcome Graph := apply B.subtract g h harm

/-- `compare` (libhfst/src/HfstTransducer.cc:1590-1652). -/
def compare (B : Backend) (g h : Graph) (harm : Bool := true) : Outcome Bool :=
  let p := prepare g h harm
  (harmonize p.1 p.2).bind fun r => .ok (B.equivalent (B.optimize r.1) (B.optimize r.2))

/-- `substitute_single_identity_with_the_other_symbol` (libhfst/src/HfstTransducer.cc:4110-4133). -/
def singleIdentity (p : Sym × Sym) : Option (List (Sym × Sym)) :=
  if p.1 = identity ∧ p.2 ≠ identity then some [(unknown, p.2)]
  else if p.2 = identity ∧ p.1 ≠ identity then some [(p.1, unknown)]
  else none

/-- `compose` (libhfst/src/HfstTransducer.cc:4205-4409).  What is done at the end to the copy of the second transducer, which
is then deleted, is left out. -/
def compose (B : Backend) (g h : Graph) (harm : Bool := true) : Outcome Graph :=
  let p := prepare g h harm
  (harmonize p.1 p.2).bind fun r =>
  (r.1.substitute identity unknown false true).bind fun g =>
  (r.2.substitute identity unknown true false).bind fun h =>
    (B.compose g h).substituteFunc singleIdentity

/-- `substitute(proj, 1, 2)`: `RelabelFst` with unknown for identity (libhfst/src/implementations/TropicalWeightTransducer.cc:
2170-2171, 2182-2183, 2210-2218). -/
def unknownToIdentity (g : Graph) : Graph :=
  { g with states := g.states.map fun l => l.map (Graph.substArc unknown identity true true) }

/-- `input_project` (libhfst/src/HfstTransducer.cc:2477-2500,
libhfst/src/implementations/TropicalWeightTransducer.cc:2164-2174). -/
def inputProject (B : Backend) (g : Graph) : Graph := unknownToIdentity (B.projectInput g)

/-- `output_project` (libhfst/src/HfstTransducer.cc:2502-2525,
libhfst/src/implementations/TropicalWeightTransducer.cc:2176-2186). -/
def outputProject (B : Backend) (g : Graph) : Graph := unknownToIdentity (B.projectOutput g)

/-- `is_automaton` (libhfst/src/implementations/TropicalWeightTransducer.cc:1688-1705). -/
def isAutomaton (g : Graph) : Bool := g.states.all fun l => l.all fun a => decide (a.inp = a.out) && decide (a.inp ≠ unknown)

/-- `HfstTransducer(symbol, type)` and `HfstTransducer(isymbol, osymbol, type)` (libhfst/src/HfstTransducer.cc:1416-1530,
libhfst/src/implementations/TropicalWeightTransducer.cc:1613-1650); also `HfstTransducer(upper, lower, tokenizer, type)` for
single symbols (libhfst/src/HfstTransducer.cc:1176-1232). -/
def single (x y : Sym) : Graph :=
  (({ states := [[], []], finals := [(1, 0)], alphabet := [epsilon, unknown, identity] } : Graph).addTransition 0 ⟨1, x, y, 0⟩)

/-- `create_epsilon_transducer` (libhfst/src/implementations/TropicalWeightTransducer.cc:1570-1579). -/
def epsilonGraph : Graph := { states := [[]], finals := [(0, 0)], alphabet := [epsilon, unknown, identity] }

/-- The loop in `negate` that adds the flag diacritics (libhfst/src/HfstTransducer.cc:2542-2546). -/
def addFlags (B : Backend) : List Sym → Graph → Outcome Graph
  | [], g => .ok g
  | x :: xs, g => (disjunct B g (single x x)).bind fun g' => addFlags B xs g'

/-- `insert_missing_diacritics_to_alphabet_from` (libhfst/src/HfstTransducer.cc:2995-3012): the flags. -/
def missingFlags (g h : Graph) : List Sym := h.alphabet.filter fun x => decide (x ∉ g.alphabet) && Flags.isDiacritic x

/-- `negate` (libhfst/src/HfstTransducer.cc:2527-2553). -/
def negate (B : Backend) (g : Graph) : Outcome Graph :=
  if !isAutomaton g then .throws
  else
    let idstar := single identity identity
    let flags := missingFlags idstar g
    (addFlags B flags (idstar.addSymbols flags)).bind fun idstar =>
      subtract B (B.optimize (B.star idstar)) g

/-- `priority_union` (libhfst/src/HfstTransducer.cc:4808-4836). -/
def priorityUnion (B : Backend) (g h : Graph) : Outcome Graph :=
  let upper := B.optimize (inputProject B g)
  (negate B upper).bind fun complement =>
  (compose B (complement.pruneAlphabet false) h).bind fun rest =>
  (disjunct B g (B.optimize rest)).bind fun r => .ok (B.optimize r)

/-- `lenient_composition` (libhfst/src/HfstTransducer.cc:4543-4563). -/
def lenientComposition (B : Backend) (g h : Graph) : Outcome Graph :=
  (compose B g h).bind fun r =>
  (priorityUnion B (B.optimize r) g).bind fun r => .ok (B.optimize r)

/-- `"@_MARK_@"` (libhfst/src/HfstTransducer.cc:4599). -/
def mark : Sym := "@_MARK_@".toList

/-- Every `HfstTransducer` has the special symbols (`create_symbol_table`,
libhfst/src/implementations/TropicalWeightTransducer.cc:1543-1551). -/
def convert (g : Graph) : Graph := g.addSymbols [epsilon, unknown, identity]

/-- The two tests at the beginning of `cross_product` (libhfst/src/HfstTransducer.cc:4583-4593). -/
def projectsToItself (B : Backend) (g : Graph) : Outcome Bool := compare B (inputProject B g) g

/-- The transducers with the mark (libhfst/src/HfstTransducer.cc:4606-4619). -/
def markStar (B : Backend) (x y : Sym) : Graph := B.optimize (B.star (single x y))

/-- `cross_product` after the tests (libhfst/src/HfstTransducer.cc:4594-4640). -/
def crossBody (B : Backend) (g h : Graph) : Outcome Graph :=
  let g := g.addSymbol mark
  let h := h.addSymbol mark
  (compose B g (markStar B unknown mark)).bind fun a =>
  (concatenate B (B.optimize a) (markStar B epsilon mark)).bind fun a =>
  (compose B (B.optimize (B.star (B.invert (single unknown mark)))) h).bind fun b =>
  (concatenate B (B.optimize b) (B.optimize (B.star (B.invert (single epsilon mark))))).bind fun b =>
  (compose B (B.optimize a) (B.optimize b)).bind fun r =>
  ((B.optimize r).substitutePairSet (unknown, unknown) [(identity, identity), (unknown, unknown)]).bind fun r =>
    .ok ((convert r).removeSymbol mark)

/-- `cross_product` (libhfst/src/HfstTransducer.cc:4565-4641). -/
def crossProduct (B : Backend) (g h : Graph) : Outcome Graph :=
  (projectsToItself B g).bind fun a =>
  (projectsToItself B h).bind fun b =>
    if !a || !b then .throws else crossBody B g h

/-- `repeat_n` (libhfst/src/implementations/TropicalWeightTransducer.cc:2097-2112); the symbol table of the operand replaces the
one of the epsilon transducer. -/
def repeatN (B : Backend) (g : Graph) (n : Nat) : Graph :=
  if n = 0 then epsilonGraph
  else (List.range n).foldl (fun r _ => B.concat r g) { epsilonGraph with alphabet := g.alphabet }

/-- `optionalize` (libhfst/src/implementations/TropicalWeightTransducer.cc:2135-2143). -/
def optionalize (B : Backend) (g : Graph) : Graph := B.disjunct { epsilonGraph with alphabet := g.alphabet } g

/-- `repeat_le_n` (libhfst/src/implementations/TropicalWeightTransducer.cc:2114-2133). -/
def repeatLe (B : Backend) (g : Graph) (n : Nat) : Graph :=
  if n = 0 then epsilonGraph
  else (List.range n).foldl (fun r _ => B.concat r (optionalize B g)) { epsilonGraph with alphabet := g.alphabet }

/-- `repeat_n_plus` (libhfst/src/HfstTransducer.cc:2345-2358). -/
def repeatNPlus (B : Backend) (g : Graph) (n : Nat) : Outcome Graph := concatenate B (repeatN B g n) (B.star g)

/-- `repeat_n_to_k` (libhfst/src/HfstTransducer.cc:2384-2397); the difference is computed with 32-bit unsigned numbers. -/
def repeatNToK (B : Backend) (g : Graph) (n k : Nat) : Outcome Graph :=
  concatenate B (repeatN B g n) (repeatLe B g ((k + 2 ^ 32 - n) % 2 ^ 32))

end Hfst.Trans
