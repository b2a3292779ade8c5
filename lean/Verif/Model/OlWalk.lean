import Verif.Model.OlConvert

/-!
# Walking through the tables of a transducer for optimized lookup

Model of `get_transitions_from_state` (libhfst/src/implementations/optimized-lookup/transducer.cc:895-964), of the conversion to a basic
transducer (libhfst/src/implementations/ConvertOlTransducer.cc:33-139) and of `extract_paths`
(libhfst/src/implementations/HfstOlTransducer.cc:217-438).

* `count` is the number of symbols in the header.
* The loops over transitions have a counter; if it runs out, the outcome is `undefined`.  The theorems show that this does not happen.
-/
namespace Hfst.Ol
open Hfst.Basic

/-- `TransducerAlphabet::is_like_epsilon` (libhfst/src/implementations/optimized-lookup/transducer.cc:115-130). -/
def likeEpsilon (M : Machine) (x : Nat) : Bool :=
  (M.fd.getOperation x).isSome ||
    match M.alphabet.table[x]? with
    | none => false
    | some s => decide (5 ≤ s.length) && isInsertion (asText s)

/-- `insert` into a `TransitionTableIndexSet`, a set in ascending order
(libhfst/src/implementations/optimized-lookup/transducer.cc:915, 934, 957). -/
def placeInsert (x : Nat) : List Nat → List Nat
  | [] => [x]
  | y :: ys => if x < y then x :: y :: ys else if x = y then y :: ys else y :: placeInsert x ys

/-- The loop over the epsilons and flags of a state (libhfst/src/implementations/optimized-lookup/transducer.cc:911-922). -/
def walkFree (M : Machine) (x : Nat) : Nat → Nat → List Nat → Outcome (List Nat)
  | 0, _, _ => .undefined
  | n + 1, i, acc => match tableGet M.transitions i with
    | none => .undefined
    | some t =>
      if t.input ≠ noSymbol ∧ t.input = x then walkFree M x n (i + 1) (placeInsert i acc)
      else if t.input ≠ 0 ∧ likeEpsilon M t.input = false then .ok acc
      else walkFree M x n (i + 1) acc

/-- The loop over the transitions with one input symbol (libhfst/src/implementations/optimized-lookup/transducer.cc:930-940). -/
def walkSymbol (M : Machine) (x : Nat) : Nat → Nat → List Nat → Outcome (List Nat)
  | 0, _, _ => .undefined
  | n + 1, i, acc => match tableGet M.transitions i with
    | none => .undefined
    | some t => if t.input ≠ noSymbol ∧ t.input = x then walkSymbol M x n (i + 1) (placeInsert i acc) else .ok acc

/-- The loop over the transitions of a state that is only in the transition table
(libhfst/src/implementations/optimized-lookup/transducer.cc:953-961). -/
def walkAll (M : Machine) : Nat → Nat → List Nat → Outcome (List Nat)
  | 0, _, _ => .undefined
  | n + 1, i, acc => match tableGet M.transitions i with
    | none => .undefined
    | some t => if t.input ≠ noSymbol then walkAll M n (i + 1) (placeInsert i acc) else .ok acc

/-- The loop over the symbols (libhfst/src/implementations/optimized-lookup/transducer.cc:902-946). -/
def walkSymbols (M : Machine) (i : Nat) : List Nat → List Nat → Outcome (List Nat)
  | [], acc => .ok acc
  | x :: xs, acc =>
    if likeEpsilon M x then
      match tableGet M.indices (i + 1) with
      | none => .undefined
      | some e =>
        if e.input ≠ noSymbol ∧ e.input = 0 then
          (walkFree M x (M.transitions.length + 1) e.target acc).bind (walkSymbols M i xs)
        else walkSymbols M i xs acc
    else
      match tableGet M.indices (i + 1 + x) with
      | none => .undefined
      | some e =>
        if e.input ≠ noSymbol ∧ e.input = x then
          (walkSymbol M e.input (M.transitions.length + 1) e.target acc).bind (walkSymbols M i xs)
        else walkSymbols M i xs acc

/-- `Transducer::get_transitions_from_state` (libhfst/src/implementations/optimized-lookup/transducer.cc:895-964).  A `throw` without an
exception ends the program; here it is `throws`. -/
def transitionsFrom (M : Machine) (count i : Nat) : Outcome (List Nat) :=
  if i < targetStart then walkSymbols M i (List.range count) []
  else match tableGet M.transitions i with
    | none => .undefined
    | some t =>
      if t.input ≠ noSymbol ∨ t.output ≠ noSymbol then .throws
      else walkAll M (M.transitions.length + 1) (i + 1) []

/-- Whether the state is final, and its weight (libhfst/src/implementations/ConvertOlTransducer.cc:44-72,
libhfst/src/implementations/HfstOlTransducer.cc:280-299). -/
def placeFinal (M : Machine) (i : Nat) : Outcome (Option Int) :=
  if i < targetStart then
    match tableGet M.indices i with
    | none => .undefined
    | some e => .ok (if e.final then some (M.indexWeight e) else none)
  else
    match tableGet M.transitions i with
    | none => .undefined
    | some t => .ok (if t.final then some (M.transWeight t) else none)

/-! ## Conversion to a basic transducer -/

/-- What the conversion has made: the graph, the numbers of the states, the agenda (its first element is the last one of the code's vector)
and the last number (libhfst/src/implementations/ConvertOlTransducer.cc:82, 98-100). -/
structure Unfolding where
  graph : Graph
  map : List (Nat × Nat)
  agenda : List Nat
  last : Nat

/-- Making a state final (libhfst/src/implementations/ConvertOlTransducer.cc:50-56, 65-71). -/
def withFinal (g : Graph) (number : Nat) : Option Int → Graph
  | none => g
  | some w => (g.addStateN number).setFinal number w

/-- `hfst_ol_to_hfst_basic_add_state` (libhfst/src/implementations/ConvertOlTransducer.cc:33-75). -/
def Unfolding.addState (M : Machine) (U : Unfolding) (i number : Nat) : Outcome Unfolding :=
  (placeFinal M i).bind fun f =>
    .ok { U with map := mapPut U.map i number,
                 graph := withFinal U.graph number f }

/-- One transition of a state (libhfst/src/implementations/ConvertOlTransducer.cc:112-133). -/
def Unfolding.step (M : Machine) (current : Nat) (U : Unfolding) (k : Nat) : Outcome Unfolding :=
  match tableGet M.transitions k with
  | none => .undefined
  | some t =>
    (if (mapGet U.map t.target).isSome then .ok U
     else (U.addState M t.target (U.last + 1)).bind fun V => .ok { V with last := U.last + 1, agenda := t.target :: V.agenda }).bind fun V =>
      match M.alphabet.table[t.input]?, M.alphabet.table[t.output]? with
      | some x, some y =>
        .ok { V with graph := V.graph.addTransition current ⟨(mapGet V.map t.target).getD 0, asText x, asText y, M.transWeight t⟩ }
      | _, _ => .undefined

/-- The transitions of a state (libhfst/src/implementations/ConvertOlTransducer.cc:114-134). -/
def Unfolding.steps (M : Machine) (current : Nat) : List Nat → Unfolding → Outcome Unfolding
  | [], U => .ok U
  | k :: ks, U => (U.step M current k).bind (Unfolding.steps M current ks)

/-- The loop over the agenda (libhfst/src/implementations/ConvertOlTransducer.cc:105-135). -/
def Unfolding.run (M : Machine) (count : Nat) : Nat → Unfolding → Outcome Unfolding
  | 0, _ => .undefined
  | n + 1, U => match U.agenda with
    | [] => .ok U
    | i :: rest =>
      (transitionsFrom M count i).bind fun l =>
        (Unfolding.steps M ((mapGet U.map i).getD 0) l { U with agenda := rest }).bind (Unfolding.run M count n)

/-- `hfst_ol_to_hfst_basic_transducer` (libhfst/src/implementations/ConvertOlTransducer.cc:79-139). -/
def toBasic (M : Machine) (count fuel : Nat) : Outcome Graph :=
  ((Unfolding.mk (Graph.init.addSymbols (M.alphabet.table.map asText)) [] [] 0).addState M 0 0).bind fun U =>
    (Unfolding.run M count fuel { U with agenda := [0] }).bind fun V => .ok V.graph

/-! ## Extracting the paths -/

/-- Where a transition is put among the others: before the first one whose target was visited more often
(libhfst/src/implementations/HfstOlTransducer.cc:321-330).  The counts are numbers of 16 bits. -/
def visitInsert (M : Machine) (trail : List Nat) (k : Nat) (t : Trans) : List (Nat × Trans) → List (Nat × Trans)
  | [] => [(k, t)]
  | p :: ps =>
    if trail.count t.target % 65536 < trail.count p.2.target % 65536 then (k, t) :: p :: ps
    else p :: visitInsert M trail k t ps

/-- The transitions of a state in the order in which they are tried (libhfst/src/implementations/HfstOlTransducer.cc:313-331). -/
def visitSort (M : Machine) (trail : List Nat) : List Nat → List (Nat × Trans) → Outcome (List (Nat × Trans))
  | [], acc => .ok acc
  | k :: ks, acc => match tableGet M.transitions k with
    | none => .undefined
    | some t => visitSort M trail ks (visitInsert M trail k t acc)

/-- How a path is shown and which flags let it through: `cycles`, `fd` and `filter_fd` of the call
(libhfst/src/implementations/HfstOlTransducer.cc:419-421). -/
structure Extraction where
  cycles : Int
  fd : Option (Flags.FdTable Nat)
  filter : Bool

/-- The flag states after a transition; `none` if it is not followed
(libhfst/src/implementations/HfstOlTransducer.cc:343-353). -/
def Extraction.flags (E : Extraction) (fs : Flags.FdState) (x : Nat) : Outcome (Option Flags.FdState) :=
  match E.fd with
  | none => .ok (some fs)
  | some fd => match fd.getOperation x with
    | none => .ok (some fs)
    | some o => match fs.apply o with
      | none => .undefined
      | some (true, fs') => .ok (some fs')
      | some (false, _) => .ok none

/-- The string of a symbol (libhfst/src/implementations/HfstOlTransducer.cc:383-395). -/
def Extraction.name (M : Machine) (E : Extraction) (x : Nat) : Outcome Bytes :=
  let plain : Outcome Bytes := match M.alphabet.table[x]? with
    | none => .undefined
    | some s => .ok s
  if E.filter then
    match E.fd with
    | none => .throws
    | some fd => if (fd.getOperation x).isSome then .ok [] else plain
  else plain

/-- A callback: its state, a path and whether the path is accepted give the new state, whether to go on with the search and whether to go on
with the path (`ExtractStringsCb::operator()`, libhfst/src/HfstExtractStrings.h:173-201). -/
abbrev Callback (σ : Type) := σ → TwoLevel → Bool → σ × Bool × Bool

/-- A call of `extract_paths` for the target of a transition: the place, the weight, the path, the flags and the state of the callback
(libhfst/src/implementations/HfstOlTransducer.cc:399-405). -/
abbrev ExtractCall (σ : Type) := Nat → Int → List (Bytes × Bytes) → Flags.FdState → σ → Outcome (Bool × σ)

/-- The loop over the transitions (libhfst/src/implementations/HfstOlTransducer.cc:333-411). -/
def extractArcs {σ : Type} (M : Machine) (E : Extraction) (call : ExtractCall σ) (w : Int) (spv : List (Bytes × Bytes)) (fs : Flags.FdState) :
    List (Nat × Trans) → σ → Outcome (Bool × σ)
  | [], c => .ok (true, c)
  | (_, t) :: ps, c =>
    (E.flags fs t.input).bind fun r => match r with
      | none => extractArcs M E call w spv fs ps c
      | some fs' =>
        (E.name M t.input).bind fun x => (E.name M t.output).bind fun y =>
          (call t.target (w + M.transWeight t) (spv ++ [(x, y)]) fs' c).bind fun (b, c') =>
            if b then extractArcs M E call w spv fs ps c' else .ok (false, c')

/-- The static function `extract_paths` (libhfst/src/implementations/HfstOlTransducer.cc:217-415).  The two maps of visitations are passed by
value, so both tell how often a state is on the path; `trail` is the list of the states on the path. -/
def extractFrom {σ : Type} (M : Machine) (count : Nat) (E : Extraction) (cb : Callback σ) :
    Nat → List Nat → ExtractCall σ
  | 0, _, _, _, _, _, _ => .undefined
  | n + 1, trail, s, w, spv, fs, c =>
    if 0 ≤ E.cycles ∧ E.cycles < (trail.count s % 65536 : Nat) then .ok (true, c)
    else
      (if spv = [] then .ok (c, true, true)
       else (placeFinal M s).bind fun f => .ok (cb c (w + f.getD 0, spv) f.isSome)).bind fun (c', goOn, further) =>
        if !goOn || !further then .ok (goOn, c')
        else
          (transitionsFrom M count s).bind fun l => (visitSort M (s :: trail) l []).bind fun ps =>
            extractArcs M E (extractFrom M count E cb n (s :: trail)) w spv fs ps c'

/-- `HfstOlTransducer::extract_paths` (libhfst/src/implementations/HfstOlTransducer.cc:419-438). -/
def extractPaths {σ : Type} (M : Machine) (count : Nat) (E : Extraction) (cb : Callback σ) (fuel : Nat) (c : σ) : Outcome σ :=
  (extractFrom M count E cb fuel [] 0 0 [] (Flags.FdState.init (match E.fd with
    | none => 0
    | some fd => fd.numFeatures)) c).bind fun r => .ok r.2

end Hfst.Ol
