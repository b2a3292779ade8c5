import Verif.Model.OlEncode

/-!
# Optimized lookup: finding the analyses

Model of `Transducer::get_analyses` and the functions that it calls
(libhfst/src/implementations/optimized-lookup/transducer.cc:360-462, 464-714).

* `recursion_depth_left` is an argument: the code puts back the old value whenever it returns.
* The limit on the time is not modelled (`time_cutoff` is 0).
* Weights are integers; `weightOf` tells which weight the 32 bits in a table stand for.
* The loops over transitions have a counter; if it runs out, the outcome is `undefined`.  The theorems show that this does not happen.
-/
namespace Hfst.Ol
open Hfst.Basic

/-- The parts of `Transducer` that a lookup only reads (libhfst/src/implementations/optimized-lookup/transducer.h:917-936). -/
structure Machine where
  indices : List Index
  transitions : List Trans
  alphabet : Alphabet
  /-- `orig_symbol_count` (libhfst/src/implementations/optimized-lookup/transducer.h:383). -/
  orig : Nat
  fd : Flags.FdTable Nat
  weighted : Bool
  weightOf : Nat → Int
  /-- `input_tape` (libhfst/src/implementations/optimized-lookup/transducer.h:926). -/
  tape : List Nat
  /-- `max_lookups` (libhfst/src/implementations/optimized-lookup/transducer.h:935). -/
  limit : Int

/-- A result: the weight and the pairs of strings (`HfstTwoLevelPath`, libhfst/src/HfstDataTypes.h:122). -/
abbrev TwoLevel := Int × List (Bytes × Bytes)

/-- The parts of `Transducer` that a lookup changes (libhfst/src/implementations/optimized-lookup/transducer.h:923-933). -/
structure LState where
  out : List (Nat × Nat)
  flags : Flags.FdState
  seen : List (Nat × List Int)
  found : Bool
  weight : Int
  results : List TwoLevel

/-- `get_weight` of a transition (libhfst/src/implementations/optimized-lookup/transducer.h:608, 644). -/
def Machine.transWeight (M : Machine) (t : Trans) : Int := if M.weighted then M.weightOf t.weight else 0

/-- `final_weight` of an index entry (libhfst/src/implementations/optimized-lookup/transducer.h:516,
libhfst/src/implementations/optimized-lookup/transducer.cc:232-241). -/
def Machine.indexWeight (M : Machine) (x : Index) : Int := if M.weighted then M.weightOf x.target else 0

/-- `Transition::final` (libhfst/src/implementations/optimized-lookup/transducer.cc:226-230). -/
def Trans.final (t : Trans) : Bool := decide (t.input = noSymbol ∧ t.output = noSymbol ∧ t.target = 1)

/-- `TransducerAlphabet::is_meta_arc` (libhfst/src/implementations/optimized-lookup/transducer.cc:132-139). -/
def Alphabet.isMeta (al : Alphabet) (x : Nat) : Bool :=
  decide (x ≠ noSymbol ∧ (x = al.unknown ∨ x = al.default ∨ x = al.identity))

/-- `TransducerAlphabet::string_from_symbol` (libhfst/src/implementations/optimized-lookup/transducer.h:435-437). -/
def Alphabet.string (al : Alphabet) (x : Nat) : Option Bytes := if x = 0 then some [] else al.table[x]?

/-- `DoubleTape::write` (libhfst/src/implementations/optimized-lookup/transducer.h:847-853). -/
def writeTape (tape : List (Nat × Nat)) (pos : Nat) (p : Nat × Nat) : List (Nat × Nat) :=
  (tape ++ List.replicate (pos + 1 - tape.length) (0, 0)).set pos p

/-- The strings of the entries of the output tape (libhfst/src/implementations/optimized-lookup/transducer.cc:707-711). -/
def tapeStrings (al : Alphabet) : List (Nat × Nat) → Option (List (Bytes × Bytes))
  | [] => some []
  | p :: ps => match al.string p.1, al.string p.2, tapeStrings al ps with
    | some a, some b, some l => some ((a, b) :: l)
    | _, _, _ => none

/-- `Transducer::note_analysis` (libhfst/src/implementations/optimized-lookup/transducer.cc:704-714). -/
def noteAnalysis (M : Machine) (s : LState) : Outcome LState :=
  let entries := s.out.takeWhile fun p => p.2 ≠ noSymbol
  if entries.length = s.out.length then .undefined
  else match tapeStrings M.alphabet entries with
    | none => .undefined
    | some l => .ok { s with results := setInsert s.results (s.weight, l) }

/-- A call of `get_analyses` with the places on the tapes and in the tables
(libhfst/src/implementations/optimized-lookup/transducer.cc:580-582). -/
abbrev Call := Nat → Nat → Nat → LState → Outcome LState

/-- `Transducer::try_epsilon_transitions` (libhfst/src/implementations/optimized-lookup/transducer.cc:464-510). -/
def tryEpsilonTransitions (M : Machine) (call : Call) (ip op : Nat) : Nat → Nat → LState → Outcome LState
  | 0, _, _ => .undefined
  | n + 1, i, s => match tableGet M.transitions i with
    | none => .undefined
    | some t =>
      if t.input = 0 then
        (call ip (op + 1) t.target
          { s with out := writeTape s.out op (t.input, t.output), weight := s.weight + M.transWeight t }).bind fun s' =>
          tryEpsilonTransitions M call ip op n (i + 1) { s' with found := true, weight := s.weight }
      else match M.fd.getOperation t.input with
        | none => .ok s
        | some o => match s.flags.apply o with
          | none => .undefined
          | some (true, fs) =>
            if (t.target, s.flags.values) ∈ s.seen then
              tryEpsilonTransitions M call ip op n (i + 1) { s with flags := fs.assign M.fd.numFeatures s.flags.values }
            else
              (call ip (op + 1) t.target
                { s with flags := fs, seen := setInsert s.seen (t.target, s.flags.values),
                         out := writeTape s.out op (t.input, t.output), weight := s.weight + M.transWeight t }).bind fun s' =>
                tryEpsilonTransitions M call ip op n (i + 1)
                  { s' with found := true, weight := s.weight, seen := setErase s'.seen (t.target, s.flags.values),
                            flags := s'.flags.assign M.fd.numFeatures s.flags.values }
          | some (false, fs) =>
            tryEpsilonTransitions M call ip op n (i + 1) { s with flags := fs.assign M.fd.numFeatures s.flags.values }

/-- `Transducer::try_epsilon_indices` (libhfst/src/implementations/optimized-lookup/transducer.cc:512-524). -/
def tryEpsilonIndices (M : Machine) (call : Call) (ip op i : Nat) (s : LState) : Outcome LState :=
  match tableGet M.indices i with
  | none => .undefined
  | some x =>
    if x.input = 0 then
      (tryEpsilonTransitions M call ip op (M.transitions.length + 1) (x.target - targetStart) s).bind fun s' =>
        .ok { s' with found := true }
    else .ok s

/-- `Transducer::find_transitions` (libhfst/src/implementations/optimized-lookup/transducer.cc:526-559). -/
def findTransitions (M : Machine) (call : Call) (input ip op : Nat) : Nat → Nat → LState → Outcome LState
  | 0, _, _ => .undefined
  | n + 1, i, s => match tableGet M.transitions i with
    | none => .undefined
    | some t =>
      if t.input ≠ noSymbol ∧ t.input = input then
        match M.tape[ip - 1]? with
        | none => .undefined
        | some y =>
          (call ip (op + 1) t.target
            { s with seen := [], weight := s.weight + M.transWeight t,
                     out := writeTape s.out op (input, if M.alphabet.isMeta t.output then y else t.output) }).bind fun s' =>
            findTransitions M call input ip op n (i + 1) { s' with found := true, weight := s.weight }
      else .ok s

/-- `Transducer::find_index` (libhfst/src/implementations/optimized-lookup/transducer.cc:561-575). -/
def findIndex (M : Machine) (call : Call) (input ip op i : Nat) (s : LState) : Outcome LState :=
  match tableGet M.indices (i + input) with
  | none => .undefined
  | some x =>
    if x.input = input then
      (findTransitions M call input ip op (M.transitions.length + 1) (x.target - targetStart) s).bind fun s' =>
        .ok { s' with found := true }
    else .ok s

/-- Enough results (libhfst/src/implementations/optimized-lookup/transducer.cc:591-594, 607, 656). -/
def Machine.enough (M : Machine) (s : LState) : Bool := decide (0 ≤ M.limit ∧ M.limit ≤ s.results.length)

/-- The check for finality (libhfst/src/implementations/optimized-lookup/transducer.cc:606-616, 655-665); `final` is the final weight
of the state. -/
def checkFinal (M : Machine) (op : Nat) (final : Option Int) (s : LState) : Outcome LState :=
  if M.enough s then .ok s
  else
    let s := { s with out := writeTape s.out op (noSymbol, noSymbol) }
    match final with
    | none => .ok s
    | some w => (noteAnalysis M { s with weight := s.weight + w }).bind fun s' => .ok { s' with weight := s.weight }

/-- The final weight of a state in the transition table (libhfst/src/implementations/optimized-lookup/transducer.cc:609-611). -/
def Machine.transFinal (M : Machine) (t : Trans) : Option Int := if t.final then some (M.transWeight t) else none

/-- The final weight of a state in the index table (libhfst/src/implementations/optimized-lookup/transducer.cc:658-660). -/
def Machine.indexFinal (M : Machine) (x : Index) : Option Int := if x.final then some (M.indexWeight x) else none

/-- The transitions that read the next input symbol `x` (libhfst/src/implementations/optimized-lookup/transducer.cc:631-651, 680-699):
`find` is `find_transitions` or `find_index` at the state. -/
def consume (M : Machine) (find : Nat → LState → Outcome LState) (x : Nat) (s : LState) : Outcome LState :=
  (if x < M.orig then find x s
   else (if M.alphabet.identity ≠ noSymbol then find M.alphabet.identity s else .ok s).bind fun s =>
     if M.alphabet.unknown ≠ noSymbol then find M.alphabet.unknown s else .ok s).bind fun s =>
  if M.alphabet.default ≠ noSymbol ∧ s.found = false then find M.alphabet.default s else .ok s

/-- What `get_analyses` does at a state (libhfst/src/implementations/optimized-lookup/transducer.cc:605-651, 655-700): `x` is what is on
the input tape, `final` the final weight of the state, `eps` tries the transitions without input and `find` those with an input
symbol. -/
def visit (M : Machine) (op x : Nat) (final : Option Int) (eps : LState → Outcome LState)
    (find : Nat → LState → Outcome LState) (s : LState) : Outcome LState :=
  (if x = noSymbol then checkFinal M op final s else .ok s).bind fun s =>
  (eps s).bind fun s =>
  if x = noSymbol then .ok s
  else (consume M find x s).bind fun s => .ok { s with out := writeTape s.out op (noSymbol, noSymbol) }

/-- `Transducer::get_analyses` (libhfst/src/implementations/optimized-lookup/transducer.cc:580-702); the first argument is
`recursion_depth_left`.  The entry of the state is looked at in any case, in the code only at the end of the input. -/
def getAnalyses (M : Machine) : Nat → Call
  | 0, _, _, _, s => .ok { s with found := false }
  | d + 1, ip, op, i, s =>
    if M.enough s then .ok { s with found := false }
    else match M.tape[ip]? with
      | none => .undefined
      | some x =>
        if targetStart ≤ i then
          match tableGet M.transitions (i - targetStart) with
          | none => .undefined
          | some t => visit M op x (M.transFinal t)
              (tryEpsilonTransitions M (getAnalyses M d) ip op (M.transitions.length + 1) (i - targetStart + 1))
              (fun y => findTransitions M (getAnalyses M d) y (ip + 1) op (M.transitions.length + 1) (i - targetStart + 1))
              { s with found := false }
        else
          match tableGet M.indices i with
          | none => .undefined
          | some e => visit M op x (M.indexFinal e)
              (tryEpsilonIndices M (getAnalyses M d) ip op (i + 1))
              (fun y => findIndex M (getAnalyses M d) y (ip + 1) op (i + 1))
              { s with found := false }

/-- `MAX_RECURSION_DEPTH` (libhfst/src/implementations/optimized-lookup/transducer.h:109). -/
def maxDepth : Nat := 5000

/-- `Transducer::lookup_fd_pairs` after the input was read (libhfst/src/implementations/optimized-lookup/transducer.cc:441-462);
`flags` and `out` are left from earlier lookups. -/
def lookupPairs (M : Machine) (flags : Flags.FdState) (out : List (Nat × Nat)) : Outcome (List TwoLevel) :=
  (getAnalyses M maxDepth 0 0 0 ⟨out, flags, [], false, 0, []⟩).bind fun s => .ok s.results

/-- The second half of `Transducer::lookup_fd` (libhfst/src/implementations/optimized-lookup/transducer.cc:426-436): only the outputs
are kept. -/
def outputsOnly : List TwoLevel → List (Int × List Bytes) → List (Int × List Bytes)
  | [], acc => acc
  | r :: rs, acc => outputsOnly rs (setInsert acc (r.1, r.2.map (·.2)))

/-- `Transducer::lookup_fd` after the input was read (libhfst/src/implementations/optimized-lookup/transducer.cc:407-439). -/
def lookupFd (M : Machine) (flags : Flags.FdState) (out : List (Nat × Nat)) : Outcome (List (Int × List Bytes)) :=
  (lookupPairs M flags out).bind fun l => .ok (outputsOnly l [])

/-- The parts of `Transducer` that stay from one lookup to the next
(libhfst/src/implementations/optimized-lookup/transducer.h:917-933): the symbol table and the encoder grow, the tapes keep what was
written, and the flags. -/
structure Session where
  table : List Bytes
  encoder : Encoder
  tape : List Nat
  out : List (Nat × Nat)
  flags : Flags.FdState

/-- The transducer when the input has been written to the tape: only the symbol table and the tape are different
(libhfst/src/implementations/optimized-lookup/transducer.cc:333-342). -/
def Machine.withInput (M : Machine) (table : List Bytes) (tape : List Nat) : Machine :=
  { M with alphabet := { M.alphabet with table := table }, tape := tape }

/-- `Transducer::lookup_fd` (libhfst/src/implementations/optimized-lookup/transducer.cc:407-439).  If the tokenization fails, what was
already written to the tape is left out here: the next lookup writes over it. -/
def lookupText (M : Machine) (fuel : Nat) (s : Bytes) (S : Session) : Outcome (List (Int × List Bytes) × Session) :=
  (initializeInput fuel s S.table S.encoder).bind fun r =>
    match r.1 with
    | none => .ok ([], { S with table := r.2.1, encoder := r.2.2 })
    | some ks =>
      let tape := ks ++ noSymbol :: S.tape.drop (ks.length + 1)
      (getAnalyses (M.withInput r.2.1 tape) maxDepth 0 0 0 ⟨S.out, S.flags, [], false, 0, []⟩).bind fun s =>
        .ok (outputsOnly s.results [], ⟨r.2.1, r.2.2, tape, s.out, s.flags⟩)

/-- Several lookups one after the other, each as in libhfst/src/implementations/optimized-lookup/transducer.cc:407-439. -/
def lookupMany (M : Machine) (fuel : Nat) : List Bytes → Session → Outcome Session
  | [], S => .ok S
  | s :: ss, S => (lookupText M fuel s S).bind fun r => lookupMany M fuel ss r.2

end Hfst.Ol
