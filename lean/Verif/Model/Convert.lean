import Verif.Model.Symbols

/-!
# Conversion between the HFST format and the OpenFst formats

Model of libhfst/src/implementations/ConvertTropicalWeightTransducer.cc and
libhfst/src/implementations/ConvertLogWeightTransducer.cc.  Of OpenFst, the data are modelled: states are numbered from 0, a
state has transitions and perhaps a final weight, and a symbol table maps labels to symbols.  Labels are natural numbers; weights
are integers, the infinite weight is left out.
-/
namespace Hfst.Conv
open Hfst.Basic
open Hfst.Symbols (Table)

/-- `fst::ArcTpl` (OpenFst; used in libhfst/src/implementations/ConvertTropicalWeightTransducer.cc:171-202). -/
structure OArc where
  ilabel : Nat
  olabel : Nat
  weight : Int
  next : Nat
  deriving DecidableEq, Repr

/-- A state of `fst::VectorFst` (OpenFst): its transitions, and its final weight, if that is not infinite (used in
libhfst/src/implementations/ConvertTropicalWeightTransducer.cc:153-210). -/
structure OState where
  arcs : List OArc
  final : Option Int
  deriving DecidableEq, Repr

/-- `fst::SymbolTable` (OpenFst): the labels with their symbols, in the order of the iterator (used in
libhfst/src/implementations/ConvertTropicalWeightTransducer.cc:46-47). -/
abbrev SymTable := List (Nat × Sym)

/-- `SymbolTable::Find(label)` (OpenFst): empty if there is no such label (used in
libhfst/src/implementations/ConvertLogWeightTransducer.cc:140). -/
def SymTable.symbol (st : SymTable) (n : Nat) : Sym := (mapGet st n).getD []

/-- `SymbolTable::Find(symbol)` (OpenFst; used in libhfst/src/implementations/TropicalWeightTransducer.cc:451). -/
def SymTable.label (st : SymTable) (x : Sym) : Option Nat := (st.find? fun e => e.2 = x).map (·.1)

/-- `SymbolTable::AddSymbol(symbol, label)` (OpenFst): a symbol that is there keeps its label (used in
libhfst/src/implementations/ConvertTropicalWeightTransducer.cc:243-255). -/
def SymTable.add (st : SymTable) (x : Sym) (n : Nat) : SymTable := if (st.label x).isSome then st else st ++ [(n, x)]

/-- `SymbolTable::AddSymbol(symbol)` (OpenFst): the table and the label, which is one more than all others if the symbol is new
(used in libhfst/src/implementations/ConvertLogWeightTransducer.cc:264-265). -/
def SymTable.addNext (st : SymTable) (x : Sym) : SymTable × Nat :=
  match st.label x with
  | some n => (st, n)
  | none => (st ++ [(st.foldl (fun m e => max m (e.1 + 1)) 0, x)], st.foldl (fun m e => max m (e.1 + 1)) 0)

/-- `fst::VectorFst` (OpenFst; used in libhfst/src/implementations/ConvertTropicalWeightTransducer.cc:131-132). -/
structure Ofst where
  start : Option Nat
  states : List OState
  input : Option SymTable
  output : Option SymTable
  deriving DecidableEq, Repr

/-! ## Tropical weights, from HFST -/

/-- The symbol table at first (libhfst/src/implementations/ConvertTropicalWeightTransducer.cc:243-246). -/
def specials : SymTable := (SymTable.add (SymTable.add (SymTable.add [] epsilon 0) unknown 1) identity 2)

/-- The loop over the alphabet (libhfst/src/implementations/ConvertTropicalWeightTransducer.cc:248-255).  The order of the
alphabet is that of the list. -/
def tableOf : Table → List Sym → SymTable → Outcome (SymTable × Table)
  | t, [], st => .ok (st, t)
  | t, x :: xs, st => (Symbols.getNumber t x).bind fun r => tableOf r.2 xs (st.add x r.1)

/-- The copy of one transition (libhfst/src/implementations/ConvertTropicalWeightTransducer.cc:266-273).  Transitions hold numbers;
a symbol without a number cannot be in a transition. -/
def exportArc (t : Table) (n : Nat) (a : Arc) : Outcome OArc :=
  match mapGet t.numbers a.inp, mapGet t.numbers a.out with
  | some i, some o => if a.target < n then .ok ⟨i, o, a.weight, a.target⟩ else .undefined
  | _, _ => .undefined

/-- The loop over the transitions of a state (libhfst/src/implementations/ConvertTropicalWeightTransducer.cc:262-274). -/
def exportArcs (t : Table) (n : Nat) : List Arc → Outcome (List OArc)
  | [] => .ok []
  | a :: l => (exportArc t n a).bind fun b => (exportArcs t n l).bind fun r => .ok (b :: r)

/-- The loop over the states (libhfst/src/implementations/ConvertTropicalWeightTransducer.cc:257-276). -/
def exportStates (t : Table) (n : Nat) : List (List Arc) → Outcome (List OState)
  | [] => .ok []
  | l :: ls => (exportArcs t n l).bind fun b => (exportStates t n ls).bind fun r => .ok (⟨b, none⟩ :: r)

/-- The loop over the final states (libhfst/src/implementations/ConvertTropicalWeightTransducer.cc:278-285). -/
def exportFinals : List (Nat × Int) → List OState → Outcome (List OState)
  | [], ss => .ok ss
  | (s, w) :: l, ss => if s < ss.length then exportFinals l (ss.modify s fun q => { q with final := some w }) else .undefined

/-- `hfst_basic_transducer_to_tropical_ofst` (libhfst/src/implementations/ConvertTropicalWeightTransducer.cc:226-289). -/
def toTropical (t : Table) (g : Graph) : Outcome (Ofst × Table) :=
  (tableOf t g.alphabet specials).bind fun st =>
  (exportStates t g.states.length g.states).bind fun ss =>
  (exportFinals g.finals ss).bind fun ss => .ok (⟨some 0, ss, some st.1, none⟩, st.2)

/-! ## Tropical weights, to HFST -/

/-- The numbers of the first state and state 0 are swapped (libhfst/src/implementations/ConvertTropicalWeightTransducer.cc:146-150,
158-162, 173-177).  A transducer without a start has the start -1, which is turned into an unsigned number. -/
def swap (start : Option Nat) (s : Nat) : Nat :=
  let i := start.getD (2 ^ 32 - 1)
  if s = i then 0 else if s = 0 then i else s

/-- `get_symbol_vector` (libhfst/src/implementations/TropicalWeightTransducer.cc:433-486), with `get_biggest_symbol_number`.  Labels
are not limited to 32 bits. -/
def symbolVector (st : SymTable) : List Sym :=
  let biggest := st.foldl (fun m e => if e.1 > m then e.1 else m) 0
  st.foldl (fun v e => v.set ((st.label e.2).getD 0) e.2) (List.replicate (biggest + 1) [])

/-- The symbol that a label becomes: `harmonization_vector[label]` in a transition, which the graph shows as a symbol
(libhfst/src/implementations/ConvertTropicalWeightTransducer.cc:179-202). -/
def importLabel (t : Table) (harm : List Nat) (n : Nat) : Outcome Sym :=
  match harm[n]? with
  | some k => Symbols.getSymbol t k
  | none => .throws

/-- The loop over the transitions of a state (libhfst/src/implementations/ConvertTropicalWeightTransducer.cc:167-203). -/
def importArcs (t : Table) (harm : List Nat) (start : Option Nat) (origin : Nat) : List OArc → Graph → Outcome Graph
  | [], g => .ok g
  | a :: l, g =>
    (importLabel t harm a.ilabel).bind fun x =>
    (importLabel t harm a.olabel).bind fun y =>
      importArcs t harm start origin l (g.addTransition origin ⟨swap start a.next, x, y, a.weight⟩ false)

/-- The loop over the states, beginning with state `s` (libhfst/src/implementations/ConvertTropicalWeightTransducer.cc:152-210). -/
def importStates (t : Table) (harm : List Nat) (start : Option Nat) : Nat → List OState → Graph → Outcome Graph
  | _, [], g => .ok g
  | s, q :: qs, g =>
    (importArcs t harm start (swap start s) q.arcs (g.addStateN s)).bind fun g =>
      importStates t harm start (s + 1) qs (match q.final with
        | some w => g.setFinal (swap start s) w
        | none => g)

/-- Copying the symbols of a table, without the one for label 0
(libhfst/src/implementations/ConvertTropicalWeightTransducer.cc:103-120). -/
def addTable (g : Graph) (st : SymTable) : Graph := g.addSymbols ((st.filter fun e => e.1 ≠ 0).map (·.2))

/-- `copy_alphabet` (libhfst/src/implementations/ConvertTropicalWeightTransducer.cc:96-121). -/
def copyAlphabet (g : Graph) (o : Ofst) : Graph := addTable (addTable g (o.input.getD [])) (o.output.getD [])

/-- `tropical_ofst_to_hfst_basic_transducer` (libhfst/src/implementations/ConvertTropicalWeightTransducer.cc:41-94, 130-217).  What
`handle_symbol_tables` adds to the alphabet, `copy_alphabet` adds again, so it is left out.  Without an input table, an empty
transducer that is not from HFST passes the test, and a null pointer is used. -/
def fromTropical (t : Table) (o : Ofst) (header : Bool) : Outcome (Graph × Table) :=
  match o.input with
  | none => if header || o.start.isSome then .throws else .undefined
  | some st =>
    (Symbols.harmonizationVector t (symbolVector st)).bind fun r =>
    (importStates r.2 r.1 o.start 0 o.states Graph.init).bind fun g => .ok (copyAlphabet g o, r.2)

/-! ## Log weights, from HFST -/

/-- `hfst_state_to_state_id` (libhfst/src/implementations/ConvertLogWeightTransducer.cc:215-231): the map, the states and the
number. -/
def stateId (m : List (Nat × Nat)) (ss : List OState) (s : Nat) : List (Nat × Nat) × List OState × Nat :=
  match mapGet m s with
  | some k => (m, ss, k)
  | none => (mapPut m s ss.length, ss ++ [⟨[], none⟩], ss.length)

/-- The state of the conversion: the map of states, the states, the symbol table
(libhfst/src/implementations/ConvertLogWeightTransducer.cc:239-250). -/
structure LogState where
  map : List (Nat × Nat)
  states : List OState
  table : SymTable

/-- The copy of one transition that leaves the state `s` (libhfst/src/implementations/ConvertLogWeightTransducer.cc:261-268).  The
order in which a compiler evaluates the arguments is left open by C++; here it is from left to right. -/
def logArc (s : Nat) (c : LogState) (a : Arc) : LogState :=
  let (m, ss, p) := stateId c.map c.states s
  let (st, i) := c.table.addNext a.inp
  let (st, o) := st.addNext a.out
  let (m, ss, q) := stateId m ss a.target
  ⟨m, ss.modify p fun x => { x with arcs := x.arcs ++ [⟨i, o, a.weight, q⟩] }, st⟩

/-- The loops over the states and transitions (libhfst/src/implementations/ConvertLogWeightTransducer.cc:252-270).  The variable
`source_state` is never changed. -/
def logArcs (c : LogState) (states : List (List Arc)) : LogState := states.foldl (fun c l => l.foldl (logArc 0) c) c

/-- The loop over the final states (libhfst/src/implementations/ConvertLogWeightTransducer.cc:272-279). -/
def logFinals (c : LogState) (finals : List (Nat × Int)) : LogState :=
  finals.foldl (fun c e =>
    let (m, ss, p) := stateId c.map c.states e.1
    ⟨m, ss.modify p fun x => { x with final := some e.2 }, c.table⟩) c

/-- `hfst_basic_transducer_to_log_ofst` (libhfst/src/implementations/ConvertLogWeightTransducer.cc:233-291). -/
def toLog (g : Graph) : Ofst :=
  let c := logFinals (logArcs ⟨mapPut [] 0 0, [⟨[], none⟩], specials⟩ g.states) g.finals
  ⟨some 0, c.states, some (g.alphabet.foldl (fun st x => (st.addNext x).1) c.table), none⟩

/-! ## Log weights, to HFST -/

/-- The symbol of a label (libhfst/src/implementations/ConvertLogWeightTransducer.cc:139-145, 184-189). -/
def logLabel (st : SymTable) (n : Nat) : Sym := if n = 0 then epsilon else st.symbol n

/-- The numbers of the first state and state 0 are swapped (libhfst/src/implementations/ConvertLogWeightTransducer.cc:104-109,
117-123, 130-137). -/
def logSwap (start s : Nat) : Nat := if s = 0 then start else if s = start then 0 else s

/-- The loop over the transitions of a state (libhfst/src/implementations/ConvertLogWeightTransducer.cc:125-149, 171-193).  The
constructor of transitions refuses empty symbols. -/
def logImportArcs (i o : SymTable) (start origin : Nat) : List OArc → Graph → Outcome Graph
  | [], g => .ok g
  | a :: l, g =>
    if logLabel i a.ilabel = [] ∨ logLabel o a.olabel = [] then .throws
    else logImportArcs i o start origin l
      (g.addTransition origin ⟨logSwap start a.next, logLabel i a.ilabel, logLabel o a.olabel, a.weight⟩)

/-- The body of the loops over the states (libhfst/src/implementations/ConvertLogWeightTransducer.cc:117-154, 164-195). -/
def logImportState (i o : SymTable) (start s : Nat) (q : OState) (g : Graph) : Outcome Graph :=
  (logImportArcs i o start (logSwap start s) q.arcs g).bind fun g => .ok (match q.final with
    | some w => g.setFinal (logSwap start s) w
    | none => g)

/-- The second loop over the states, beginning with state `s` (libhfst/src/implementations/ConvertLogWeightTransducer.cc:159-197). -/
def logImportStates (i o : SymTable) (start : Nat) : Nat → List OState → Graph → Outcome Graph
  | _, [], g => .ok g
  | s, q :: qs, g =>
    (if s = start then .ok g else logImportState i o start s q g).bind fun g => logImportStates i o start (s + 1) qs g

/-- `log_ofst_to_hfst_basic_transducer` (libhfst/src/implementations/ConvertLogWeightTransducer.cc:44-213).  State numbers are not
limited to 32 bits. -/
def fromLog (o : Ofst) (header : Bool) : Outcome Graph :=
  match o.input, o.start with
  | none, none => if header then .throws else .ok (addTable Graph.init (o.output.getD []))
  | some i, none => .ok (if header then addTable Graph.init i else addTable (addTable Graph.init i) (o.output.getD []))
  | none, some _ => .throws
  | some i, some s =>
    let out := o.output.getD i
    (match o.states[s]? with
      | some q => logImportState i out s s q Graph.init
      | none => .ok Graph.init).bind fun g =>
    (logImportStates i out s 0 o.states g).bind fun g => .ok (addTable (addTable g i) out)

end Hfst.Conv
