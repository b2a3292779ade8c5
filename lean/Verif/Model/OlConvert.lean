import Verif.Model.OlLookup

/-!
# Optimized lookup: making the tables

Model of `ConversionFunctions::hfst_basic_transducer_to_hfst_ol` and the functions that it calls
(libhfst/src/implementations/ConvertOlTransducer.cc:145-474, libhfst/src/implementations/optimized-lookup/convert.h:24-268,
libhfst/src/implementations/optimized-lookup/convert.cc:28-109).

* There is no harmonizer, and the option `empty_alphabet` is not given.
* `order` lists the elements of a `std::set` in its order.  The theorems hold for every order.
* `tooFull` is the comparison `filled >= (packing_aggression*symbols)` of floating-point numbers.
* Numbers do not wrap around; the theorems ask that the tables are not larger than their address space.
* `enc` gives the 32 bits of a weight.
* The two searches for a free place have a counter; if it runs out, the outcome is `undefined`.  The theorems show that this does not
  happen.
-/
namespace Hfst.Ol
open Hfst.Basic

/-- The bytes of a symbol: a character of a symbol of a graph stands for a byte. -/
def asBytes (s : Sym) : Bytes := s.map fun c => UInt8.ofNat c.toNat

/-! ## The symbols -/

/-- `PmatchAlphabet::is_insertion` (libhfst/src/implementations/optimized-lookup/pmatch.cc:899-902). -/
def isInsertion (s : Sym) : Bool := "@I.".toList.isPrefixOf s && s.getLast? == some '@'

/-- `input_symbols`, `flag_diacritics` and `other_symbols`
(libhfst/src/implementations/ConvertOlTransducer.cc:171-173). -/
structure SymbolSets where
  inputs : List Sym
  flags : List Sym
  others : List Sym

/-- The symbols of a transition are collected (libhfst/src/implementations/ConvertOlTransducer.cc:195-204). -/
def SymbolSets.addArc (S : SymbolSets) (a : Arc) : SymbolSets :=
  if Flags.isDiacritic a.inp || isInsertion a.inp then
    { S with flags := setInsert S.flags a.inp, others := setInsert S.others a.out }
  else { S with inputs := setInsert S.inputs a.inp, others := setInsert S.others a.out }

/-- A symbol of the alphabet is collected (libhfst/src/implementations/ConvertOlTransducer.cc:212-217). -/
def SymbolSets.addSymbol (S : SymbolSets) (x : Sym) : SymbolSets :=
  if x ∉ S.inputs ∧ x ∉ S.flags then { S with others := setInsert S.others x } else S

/-- The symbols of a graph (libhfst/src/implementations/ConvertOlTransducer.cc:177-217). -/
def collect (order : List Sym → List Sym) (g : Graph) : SymbolSets :=
  (order g.alphabet).foldl SymbolSets.addSymbol (g.states.flatten.foldl SymbolSets.addArc ⟨[], [], []⟩)

/-- The symbol of epsilon (libhfst/src/HfstSymbolDefs.h:100, `internal_epsilon`). -/
def epsilonSym : Sym := "@_EPSILON_SYMBOL_@".toList

/-- The input symbols that get a number (libhfst/src/implementations/ConvertOlTransducer.cc:229-236). -/
def SymbolSets.inputPart (order : List Sym → List Sym) (S : SymbolSets) : List Sym :=
  (order S.inputs).filter fun x => x ≠ epsilonSym

/-- The flags that get a number (libhfst/src/implementations/ConvertOlTransducer.cc:239-250). -/
def SymbolSets.flagPart (order : List Sym → List Sym) (S : SymbolSets) : List Sym :=
  (order S.flags).filter fun x => x ≠ epsilonSym

/-- The other symbols that get a number (libhfst/src/implementations/ConvertOlTransducer.cc:253-260). -/
def SymbolSets.otherPart (order : List Sym → List Sym) (S : SymbolSets) : List Sym :=
  (order S.others).filter fun x => x ≠ epsilonSym ∧ x ∉ S.inputs ∧ x ∉ S.flags

/-- `symbol_table` (libhfst/src/implementations/ConvertOlTransducer.cc:224-260). -/
def SymbolSets.table (order : List Sym → List Sym) (S : SymbolSets) : List Sym :=
  epsilonSym :: (S.inputPart order ++ S.flagPart order ++ S.otherPart order)

/-- `string_symbol_map[x]`, which is 0 if the symbol has no number (libhfst/src/implementations/ConvertOlTransducer.cc:287-294). -/
def symbolNumber (table : List Sym) (x : Sym) : Nat := if x ∈ table then table.idxOf x else 0

/-! ## The states -/

/-- `TransitionPlaceholder` (libhfst/src/implementations/optimized-lookup/convert.h:24-36). -/
structure TransHolder where
  target : Nat
  input : Nat
  output : Nat
  weight : Int
  deriving DecidableEq

/-- `StatePlaceholder::indexing_type` (libhfst/src/implementations/optimized-lookup/convert.h:43). -/
inductive IndexType
  | empty
  | zero
  | nonzero
  | nonsimple
  deriving DecidableEq

/-- `StatePlaceholder` (libhfst/src/implementations/optimized-lookup/convert.h:42-77).  Simplified: `groups` has the transitions of each
input symbol in the order of `transition_placeholders`; the vector that tells the places of the symbols is not kept apart. -/
structure Holder where
  number : Nat
  start : Nat
  first : Nat
  groups : List (Nat × List TransHolder)
  type : IndexType
  final : Bool
  finalWeight : Int

/-- The constructor of `StatePlaceholder` (libhfst/src/implementations/optimized-lookup/convert.h:54-63), as it is called in
libhfst/src/implementations/ConvertOlTransducer.cc:179-187. -/
def Holder.make (number first : Nat) (final : Option Int) : Holder :=
  ⟨number, noIndex, first, [], if number = 0 then .nonsimple else .empty, final.isSome, final.getD 0⟩

/-- `is_simple` (libhfst/src/implementations/optimized-lookup/convert.h:74-77). -/
def Holder.simple (p : Holder) : Bool := p.type != .nonsimple

/-- `input_present` (libhfst/src/implementations/optimized-lookup/convert.h:89-92). -/
def Holder.present (p : Holder) (x : Nat) : Bool := p.groups.any fun e => e.1 == x

/-- `get_transition_placeholders` (libhfst/src/implementations/optimized-lookup/convert.h:139-142); it is called only for symbols that
are present. -/
def Holder.group (p : Holder) (x : Nat) : List TransHolder := (mapGet p.groups x).getD []

/-- The size of `symbol_to_transition_placeholder_v` (libhfst/src/implementations/optimized-lookup/convert.h:99-101): one more than the
largest symbol. -/
def Holder.width (p : Holder) : Nat := p.groups.foldl (fun n e => max n (e.1 + 1)) 0

/-- `add_input` (libhfst/src/implementations/optimized-lookup/convert.h:94-127). -/
def Holder.addInput (flags : List Nat) (p : Holder) (x : Nat) : Holder :=
  if p.present x then p
  else
    { p with
      groups := p.groups ++ [(x, [])]
      type := match p.type with
        | .nonsimple => .nonsimple
        | .empty => if x = 0 ∨ x ∈ flags then .zero else .nonzero
        | .zero => if x ≠ 0 ∧ x ∉ flags then .nonsimple else .zero
        | .nonzero => if 1 < (p.groups ++ [(x, [])]).length ∨ x = 0 ∨ x ∈ flags then .nonsimple else .nonzero }

/-- `add_transition` (libhfst/src/implementations/optimized-lookup/convert.h:134-137). -/
def Holder.addTransition (p : Holder) (t : TransHolder) : Holder :=
  { p with groups := p.groups.map fun e => if e.1 = t.input then (e.1, e.2 ++ [t]) else e }

/-- The second pass over a transition (libhfst/src/implementations/ConvertOlTransducer.cc:286-297). -/
def Holder.addArc (table : List Sym) (flags : List Nat) (p : Holder) (a : Arc) : Holder :=
  (p.addInput flags (symbolNumber table a.inp)).addTransition
    ⟨a.target, symbolNumber table a.inp, symbolNumber table a.out, a.weight⟩

/-- `state_placeholders` after both passes (libhfst/src/implementations/ConvertOlTransducer.cc:177-206, 281-299).  The first state is
number `q` and its first transition is at `first`. -/
def holdersFrom (table : List Sym) (flags : List Nat) (finals : List (Nat × Int)) : Nat → Nat → List (List Arc) → List Holder
  | _, _, [] => []
  | q, first, l :: ls =>
    l.foldl (Holder.addArc table flags) (Holder.make q first (mapGet finals q)) ::
      holdersFrom table flags finals (q + 1) (first + 1 + l.length) ls

/-- The part of `symbol_offset` that goes through the flags (libhfst/src/implementations/optimized-lookup/convert.h:164-173): either the
result or the offset so far. -/
def Holder.offsetFlags (p : Holder) (s : Nat) : List Nat → Nat → Option Nat
  | [], off => some off
  | f :: fs, off =>
    if p.present f then if s = f then none else p.offsetFlags s fs (off + (p.group f).length)
    else p.offsetFlags s fs off

/-- The part of `symbol_offset` that goes through the other symbols (libhfst/src/implementations/optimized-lookup/convert.h:174-185). -/
def Holder.offsetOthers (p : Holder) (flags : List Nat) (s : Nat) : List Nat → Nat → Option Nat
  | [], _ => none
  | i :: is, off =>
    if p.present i then
      if i ∈ flags then p.offsetOthers flags s is off
      else if s = i then some off
      else p.offsetOthers flags s is (off + (p.group i).length)
    else p.offsetOthers flags s is off

/-- `symbol_offset` (libhfst/src/implementations/optimized-lookup/convert.h:144-191). -/
def Holder.symbolOffset (p : Holder) (flags : List Nat) (s : Nat) : Outcome Nat :=
  if s = 0 then .ok 0
  else match p.offsetFlags s flags (if p.present 0 then (p.group 0).length else 0) with
    | none => .ok 0
    | some off => match p.offsetOthers flags s (List.range' 1 (p.width - 1)) off with
      | none => .throws
      | some off => .ok off

/-! ## Packing the index table -/

/-- `IndexPlaceholders` (libhfst/src/implementations/optimized-lookup/convert.h:198-201): for each place the state and the symbol, if the
place is used.  Simplified: `indices` and `targets` are one list. -/
abbrev Used := List (Option (Nat × Nat))

/-- `used` (libhfst/src/implementations/optimized-lookup/convert.h:203-206). -/
def Used.used (u : Used) (i : Nat) : Bool := match u[i]? with
  | some (some _) => true
  | _ => false

/-- `assign` (libhfst/src/implementations/optimized-lookup/convert.h:208-215). -/
def Used.assign (u : Used) (i q s : Nat) : Used := List.set (u ++ List.replicate (i + 1 - u.length) none) i (some (q, s))

/-- Flags are looked up as epsilon (libhfst/src/implementations/optimized-lookup/convert.h:231-234,
libhfst/src/implementations/ConvertOlTransducer.cc:380-383). -/
def indexOffset (flags : List Nat) (x : Nat) : Nat := if x ∈ flags then 0 else x

/-- `fits` (libhfst/src/implementations/optimized-lookup/convert.h:222-240).  The code takes the symbol of a group from its first
transition. -/
def Used.fits (u : Used) (flags : List Nat) (p : Holder) (i : Nat) : Bool :=
  !u.used i && p.groups.all fun e => !u.used (indexOffset flags e.1 + i + 1)

/-- `unsuitable` (libhfst/src/implementations/optimized-lookup/convert.h:242-267). -/
def Used.unsuitable (tooFull : Nat → Nat → Bool) (u : Used) (i n : Nat) : Bool :=
  u.used i || (List.range n).any fun k => tooFull ((List.range (k + 1)).filter fun j => u.used (i + j + 1)).length n

/-- The search for a place that fits (libhfst/src/implementations/ConvertOlTransducer.cc:366-369). -/
def Used.findFit (u : Used) (flags : List Nat) (p : Holder) : Nat → Nat → Outcome Nat
  | 0, _ => .undefined
  | n + 1, i => if u.fits flags p i then .ok i else u.findFit flags p n (i + 1)

/-- The search for the first place that is suitable (libhfst/src/implementations/ConvertOlTransducer.cc:387-389). -/
def Used.skip (tooFull : Nat → Nat → Bool) (u : Used) (seen : Nat) : Nat → Nat → Outcome Nat
  | 0, _ => .undefined
  | n + 1, i => if u.unsuitable tooFull i seen then u.skip tooFull seen n (i + 1) else .ok i

/-- The places of a state are marked (libhfst/src/implementations/ConvertOlTransducer.cc:374-385). -/
def Used.assignAll (u : Used) (flags : List Nat) (p : Holder) (i : Nat) : Used :=
  p.groups.foldl (fun u e => u.assign (i + indexOffset flags e.1 + 1) p.number (indexOffset flags e.1))
    (u.assign i p.number noSymbol)

/-- The variables of the loop (libhfst/src/implementations/ConvertOlTransducer.cc:354-357). -/
structure Packing where
  used : Used
  available : Nat
  previous : Nat
  stuck : Nat

/-- One round of the loop (libhfst/src/implementations/ConvertOlTransducer.cc:361-402). -/
def Packing.place (tooFull : Nat → Nat → Bool) (flags : List Nat) (seen : Nat) (P : Packing) (p : Holder) :
    Outcome (Packing × Holder) :=
  if p.simple then .ok (P, p)
  else
    (P.used.findFit flags p (P.used.length + 1) P.available).bind fun i =>
      let u := P.used.assignAll flags p i
      (u.skip tooFull seen (u.length + 1) P.available).bind fun f =>
        .ok (if f = P.previous then
            if 4 < P.stuck then ⟨u, i + 1, i + 1, 0⟩ else ⟨u, f, P.previous, P.stuck + 1⟩
          else ⟨u, f, f, 0⟩, { p with start := i })

/-- The loop (libhfst/src/implementations/ConvertOlTransducer.cc:358-403). -/
def Packing.placeAll (tooFull : Nat → Nat → Bool) (flags : List Nat) (seen : Nat) :
    Packing → List Holder → Outcome (Packing × List Holder)
  | P, [] => .ok (P, [])
  | P, p :: ps =>
    (P.place tooFull flags seen p).bind fun (P', p') =>
      (Packing.placeAll tooFull flags seen P' ps).bind fun (P'', ps') => .ok (P'', p' :: ps')

/-! ## The tables -/

/-- An outcome for each element. -/
def collectOutcomes {α β : Type} (f : α → Outcome β) : List α → Outcome (List β)
  | [] => .ok []
  | x :: xs => (f x).bind fun y => (collectOutcomes f xs).bind fun ys => .ok (y :: ys)

/-- A blank entry of the index table (libhfst/src/implementations/optimized-lookup/transducer.h:465-466). -/
def blank : Index := ⟨noSymbol, noIndex⟩

/-- An entry of the index table (libhfst/src/implementations/ConvertOlTransducer.cc:422-445). -/
def indexEntry (enc : Int → Nat) (flags : List Nat) (ps : List Holder) : Option (Nat × Nat) → Outcome Index
  | none => .ok blank
  | some (q, s) => match ps[q]? with
    | none => .undefined
    | some p =>
      if s = noSymbol then .ok (if p.final then ⟨noSymbol, enc p.finalWeight⟩ else blank)
      else (p.symbolOffset flags s).bind fun off => .ok ⟨s, p.first + off + targetStart⟩

/-- The index table (libhfst/src/implementations/ConvertOlTransducer.cc:413-451). -/
def indexTable (enc : Int → Nat) (flags : List Nat) (seen : Nat) (ps : List Holder) (u : Used) : Outcome (List Index) :=
  (collectOutcomes (indexEntry enc flags ps) (if u = [] then [none] else u)).bind fun l => .ok (l ++ List.replicate seen blank)

/-- The target of a transition (libhfst/src/implementations/optimized-lookup/convert.cc:96-105). -/
def Holder.place (p : Holder) : Nat := if p.simple then p.first + targetStart - 1 else p.start

/-- `add_transitions_with` (libhfst/src/implementations/optimized-lookup/convert.cc:84-109). -/
def addTransitionsWith (enc : Int → Nat) (ps : List Holder) (x : Nat) : List TransHolder → Outcome (List Trans) :=
  collectOutcomes fun t => match ps[t.target]? with
    | none => .undefined
    | some r => .ok ⟨x, t.output, r.place, enc t.weight⟩

/-- The symbols of a state in the order in which their transitions are written
(libhfst/src/implementations/optimized-lookup/convert.cc:49-76). -/
def Holder.symbols (flags : List Nat) (p : Holder) : List Nat :=
  (if p.present 0 then [0] else []) ++ flags.filter p.present ++
    (List.range' 1 (p.width - 1)).filter fun i => p.present i && !decide (i ∈ flags)

/-- The transitions of a state (libhfst/src/implementations/optimized-lookup/convert.cc:41-76). -/
def stateEntries (enc : Int → Nat) (flags : List Nat) (ps : List Holder) (p : Holder) : Outcome (List Trans) :=
  (collectOutcomes (fun x => addTransitionsWith enc ps x (p.group x)) (p.symbols flags)).bind fun l =>
    .ok ((if p.number = 0 then [] else [⟨noSymbol, noSymbol, if p.final then 1 else noIndex, enc p.finalWeight⟩]) ++ l.flatten)

/-- `write_transitions_from_state_placeholders` (libhfst/src/implementations/optimized-lookup/convert.cc:28-82).  The weight of the last
entry has the bits of the number 4294967296. -/
def transTable (enc : Int → Nat) (flags : List Nat) (ps : List Holder) : Outcome (List Trans) :=
  (collectOutcomes (stateEntries enc flags ps) ps).bind fun l =>
    .ok (l.flatten ++ [⟨noSymbol, noSymbol, noIndex, 1333788672⟩])

/-- `TransducerAlphabet::TransducerAlphabet(const SymbolTable&)`: the flags
(libhfst/src/implementations/optimized-lookup/transducer.cc:74-93). -/
def flagTable (table : List Sym) : Option (Flags.FdTable Nat) :=
  Flags.FdTable.empty.defineAll (table.zipIdx.filterMap fun (x, i) => if Flags.isDiacritic x then some (i, x) else none)

/-- The transducer that is made (libhfst/src/implementations/ConvertOlTransducer.cc:463-473). -/
structure Converted where
  indices : List Index
  transitions : List Trans
  table : List Sym
  /-- The number of input symbols in the header. -/
  seen : Nat
  fd : Flags.FdTable Nat

/-- `hfst_basic_transducer_to_hfst_ol` (libhfst/src/implementations/ConvertOlTransducer.cc:302-474). -/
def convert (order : List Sym → List Sym) (tooFull : Nat → Nat → Bool) (enc : Int → Nat) (g : Graph) : Outcome Converted :=
  let S := collect order g
  let table := S.table order
  let seen := 1 + (S.inputPart order).length
  let flags := List.range' seen (S.flagPart order).length
  if 65535 < table.length then .throws
  else
    (Packing.placeAll tooFull flags seen ⟨[], 0, 0, 0⟩ (holdersFrom table flags g.finals 0 0 g.states)).bind fun (P, ps) =>
      (indexTable enc flags seen ps P.used).bind fun is =>
        (transTable enc flags ps).bind fun ts =>
          match flagTable table with
          | none => .throws
          | some fd => .ok ⟨is, ts, table, seen, fd⟩

/-- The transducer for lookup (libhfst/src/implementations/optimized-lookup/transducer.cc:771-786).  It has tables with weights. -/
def Converted.machine (C : Converted) (weightOf : Nat → Int) (limit : Int) : Machine :=
  ⟨C.indices, C.transitions, Alphabet.ofTable (C.table.map asBytes), C.table.length, C.fd, true, weightOf, [], limit⟩

end Hfst.Ol
