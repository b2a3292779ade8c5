import Verif.Model.OlLookup

/-!
# Optimized lookup: are there infinitely many analyses?

Model of `Transducer::is_lookup_infinitely_ambiguous` (libhfst/src/implementations/optimized-lookup/transducer.cc:382-404) and
`find_loop` (libhfst/src/implementations/optimized-lookup/find_epsilon_loops.cc:48-185).

* The exception `true` is the outcome `throws`.
* The depth of the recursion has a counter; if it runs out, the outcome is `undefined`.
-/
namespace Hfst.Ol
open Hfst.Basic

/-- What the search changes: `flag_state`, `traversal_states` and `found_transition`
(libhfst/src/implementations/optimized-lookup/transducer.h:923-933). -/
structure LoopState where
  flags : Flags.FdState
  seen : List (Nat × List Int)
  found : Bool

/-- A call of `find_loop` with the places on the tape and in the tables
(libhfst/src/implementations/optimized-lookup/find_epsilon_loops.cc:139-140). -/
abbrev LoopCall := Nat → Nat → LoopState → Outcome LoopState

/-- `Transducer::find_loop_epsilon_transitions` (libhfst/src/implementations/optimized-lookup/find_epsilon_loops.cc:48-90).  The pairs of
target and flags (`TraversalState`, libhfst/src/implementations/optimized-lookup/find_epsilon_loops.cc:16-46) are compared by their values. -/
def loopEpsilonTransitions (M : Machine) (call : LoopCall) (ip : Nat) : Nat → Nat → LoopState → Outcome LoopState
  | 0, _, _ => .undefined
  | n + 1, i, s => match tableGet M.transitions i with
    | none => .undefined
    | some t =>
      if t.input = 0 then
        if (t.target, s.flags.values) ∈ s.seen then .throws
        else
          (call ip t.target { s with seen := setInsert s.seen (t.target, s.flags.values) }).bind fun s' =>
            loopEpsilonTransitions M call ip n (i + 1)
              { s' with seen := setErase s'.seen (t.target, s.flags.values), found := true }
      else match M.fd.getOperation t.input with
        | none => .ok s
        | some o => match s.flags.apply o with
          | none => .undefined
          | some (true, fs) =>
            if (t.target, s.flags.values) ∈ s.seen then .throws
            else
              (call ip t.target { s with flags := fs, seen := setInsert s.seen (t.target, s.flags.values) }).bind fun s' =>
                loopEpsilonTransitions M call ip n (i + 1)
                  { s' with seen := setErase s'.seen (t.target, s.flags.values),
                            flags := s'.flags.assign M.fd.numFeatures s.flags.values }
          | some (false, fs) =>
            loopEpsilonTransitions M call ip n (i + 1) { s with flags := fs.assign M.fd.numFeatures s.flags.values }

/-- `Transducer::find_loop_epsilon_indices` (libhfst/src/implementations/optimized-lookup/find_epsilon_loops.cc:92-102). -/
def loopEpsilonIndices (M : Machine) (call : LoopCall) (ip i : Nat) (s : LoopState) : Outcome LoopState :=
  match tableGet M.indices i with
  | none => .undefined
  | some e =>
    if e.input = 0 then
      (loopEpsilonTransitions M call ip (M.transitions.length + 1) (e.target - targetStart) s).bind fun s' =>
        .ok { s' with found := true }
    else .ok s

/-- `Transducer::find_loop_transitions` (libhfst/src/implementations/optimized-lookup/find_epsilon_loops.cc:104-120). -/
def loopTransitions (M : Machine) (call : LoopCall) (input ip : Nat) : Nat → Nat → LoopState → Outcome LoopState
  | 0, _, _ => .undefined
  | n + 1, i, s => match tableGet M.transitions i with
    | none => .undefined
    | some t =>
      if t.input ≠ noSymbol ∧ t.input = input then
        (call ip t.target { s with seen := [] }).bind fun s' =>
          loopTransitions M call input ip n (i + 1) { s' with found := true }
      else .ok s

/-- `Transducer::find_loop_index` (libhfst/src/implementations/optimized-lookup/find_epsilon_loops.cc:122-134). -/
def loopIndex (M : Machine) (call : LoopCall) (input ip i : Nat) (s : LoopState) : Outcome LoopState :=
  match tableGet M.indices (i + input) with
  | none => .undefined
  | some e =>
    if e.input = input then
      (loopTransitions M call input ip (M.transitions.length + 1) (e.target - targetStart) s).bind fun s' =>
        .ok { s' with found := true }
    else .ok s

/-- What `find_loop` does at a state (libhfst/src/implementations/optimized-lookup/find_epsilon_loops.cc:147-163, 167-183): `x` is what is on
the input tape, `eps` tries the transitions without input and `find` those with an input symbol. -/
def loopVisit (M : Machine) (x : Nat) (eps : LoopState → Outcome LoopState) (find : Nat → LoopState → Outcome LoopState)
    (s : LoopState) : Outcome LoopState :=
  (eps s).bind fun s =>
    if x = noSymbol then .ok s
    else (find x s).bind fun s =>
      if M.alphabet.default ≠ noSymbol ∧ s.found = false then find M.alphabet.default s else .ok s

/-- `Transducer::find_loop` (libhfst/src/implementations/optimized-lookup/find_epsilon_loops.cc:139-185). -/
def findLoop (M : Machine) : Nat → LoopCall
  | 0, _, _, _ => .undefined
  | d + 1, ip, i, s =>
    match M.tape[ip]? with
    | none => .undefined
    | some x =>
      if targetStart ≤ i then
        loopVisit M x (loopEpsilonTransitions M (findLoop M d) ip (M.transitions.length + 1) (i - targetStart + 1))
          (fun y => loopTransitions M (findLoop M d) y (ip + 1) (M.transitions.length + 1) (i - targetStart + 1))
          { s with found := false }
      else
        loopVisit M x (loopEpsilonIndices M (findLoop M d) ip (i + 1))
          (fun y => loopIndex M (findLoop M d) y (ip + 1) (i + 1))
          { s with found := false }

/-- `Transducer::is_lookup_infinitely_ambiguous` after the input was read
(libhfst/src/implementations/optimized-lookup/transducer.cc:387-395). -/
def infinitelyAmbiguous (M : Machine) (fuel : Nat) (flags : Flags.FdState) : Outcome Bool :=
  match findLoop M fuel 0 0 ⟨flags, [], false⟩ with
  | .ok _ => .ok false
  | .throws => .ok true
  | .undefined => .undefined

/-- `Transducer::is_lookup_infinitely_ambiguous` (libhfst/src/implementations/optimized-lookup/transducer.cc:382-395). -/
def infinitelyAmbiguousText (M : Machine) (fuel : Nat) (s : Bytes) (S : Session) : Outcome Bool :=
  (initializeInput fuel s S.table S.encoder).bind fun r =>
    match r.1 with
    | none => .ok false
    | some ks => infinitelyAmbiguous (M.withInput r.2.1 (ks ++ noSymbol :: S.tape.drop (ks.length + 1))) fuel S.flags

end Hfst.Ol
