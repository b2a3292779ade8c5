import Verif.Model.Graph

/-!
# The numbering of symbols

Model of libhfst/src/implementations/HfstTropicalTransducerTransitionData.cc: the table shared by all transducers that gives
symbols their numbers.  Numbers are not limited to 32 bits.
-/
namespace Hfst.Symbols
open Hfst.Basic (Sym Outcome mapGet mapPut epsilon unknown identity)

/-- The static members `number2symbol_map`, `symbol2number_map` and `max_number`
(libhfst/src/implementations/HfstTropicalTransducerTransitionData.cc:42-49). -/
structure Table where
  names : List Sym
  numbers : List (Sym × Nat)
  max : Nat

/-- The table at the start of a program (libhfst/src/implementations/HfstTropicalTransducerTransitionData.cc:49, 252-264). -/
def start : Table :=
  ⟨[epsilon, unknown, identity], mapPut (mapPut (mapPut [] epsilon 0) unknown 1) identity 2, 2⟩

/-- `get_symbol` (libhfst/src/implementations/HfstTropicalTransducerTransitionData.cc:85-98). -/
def getSymbol (t : Table) (n : Nat) : Outcome Sym :=
  match t.names[n]? with
  | some x => .ok x
  | none => .throws

/-- `get_number` (libhfst/src/implementations/HfstTropicalTransducerTransitionData.cc:100-124). -/
def getNumber (t : Table) (x : Sym) : Outcome (Nat × Table) :=
  if x = [] then .throws
  else
    match mapGet t.numbers x with
    | some n => .ok (n, t)
    | none => .ok (t.max + 1, ⟨t.names ++ [x], mapPut t.numbers x (t.max + 1), t.max + 1⟩)

/-- The loop of `get_harmonization_vector` (libhfst/src/implementations/HfstTropicalTransducerTransitionData.cc:61-65). -/
def harmonizationVector : Table → List Sym → Outcome (List Nat × Table)
  | t, [] => .ok ([], t)
  | t, x :: xs =>
    if x = [] then (harmonizationVector t xs).bind fun r => .ok (0 :: r.1, r.2)
    else (getNumber t x).bind fun r => (harmonizationVector r.2 xs).bind fun q => .ok (r.1 :: q.1, q.2)

/-- The loop of `get_reverse_harmonization_vector` over the numbers given
(libhfst/src/implementations/HfstTropicalTransducerTransitionData.cc:75-81). -/
def reverseEntries (t : Table) (symbols : List (Sym × Nat)) : List Nat → Outcome (List Nat)
  | [] => .ok []
  | i :: is =>
    (getSymbol t i).bind fun x => (reverseEntries t symbols is).bind fun r => .ok ((mapGet symbols x).getD 0 :: r)

/-- `get_reverse_harmonization_vector` (libhfst/src/implementations/HfstTropicalTransducerTransitionData.cc:69-83). -/
def reverseVector (t : Table) (symbols : List (Sym × Nat)) : Outcome (List Nat) :=
  reverseEntries t symbols (List.range (t.max + 1))

/-- The constructor of transition data from symbols
(libhfst/src/implementations/HfstTropicalTransducerTransitionData.cc:143-156), without the weight: the numbers of the input and
the output symbol. -/
def transitionData (t : Table) (i o : Sym) : Outcome ((Nat × Nat) × Table) :=
  if i = [] ∨ o = [] then .throws
  else (getNumber t i).bind fun a => (getNumber a.2 o).bind fun b => .ok ((a.1, b.1), b.2)

end Hfst.Symbols
