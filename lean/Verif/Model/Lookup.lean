import Verif.Model.Graph

/-!
# `HfstBasicTransducer`: lookup and questions about cycles

Model of libhfst/src/implementations/HfstBasicTransducer.cc:3429-3938 and libhfst/src/HfstEpsilonHandler.cc.

Simplifications common to this file:
* A recursive function takes the number of nested calls still allowed as its first argument; when it is used up the result
  is `undefined`.  That this does not happen for large numbers is what termination means here.
* The index into the input is given by what is left of the input.
* Variables that are changed before a nested call and changed back after it are passed as arguments.
-/
namespace Hfst.Basic
open Hfst.Flags

/-! ## The handler of input epsilon cycles -/

/-- `HfstEpsilonHandler` (libhfst/src/HfstEpsilonHandler.h:19-27). -/
structure Handler where
  path : List Nat
  max : Nat
  cycles : Nat
  deriving DecidableEq

/-- The constructor (libhfst/src/HfstEpsilonHandler.cc:17-18). -/
def Handler.new (cutoff : Nat) : Handler := ⟨[], cutoff, 0⟩

/-- `push_back` (libhfst/src/HfstEpsilonHandler.cc:22-32). -/
def Handler.push (h : Handler) (s : Nat) : Handler :=
  if h.path.getLast? = some s then h else { h with path := h.path ++ [s] }

/-- `can_continue` (libhfst/src/HfstEpsilonHandler.cc:45-64): the answer and the changed handler. -/
def Handler.canContinue (h : Handler) (s : Nat) : Bool × Handler :=
  if s ∈ h.path then
    (decide (h.cycles + 1 ≤ h.max), { h with path := h.path.takeWhile (· ≠ s) ++ [s], cycles := h.cycles + 1 })
  else (true, h)

/-! ## Lookup -/

/-- `HfstTwoLevelPath` (libhfst/src/HfstDataTypes.h:122). -/
abbrev Result := Int × List (Sym × Sym)

/-- The end of `is_possible_transition`: can the transition be followed without consuming input
(libhfst/src/implementations/HfstBasicTransducer.cc:3764-3787). -/
def isFree (fds : Option (List Sym)) (a : Arc) : Bool :=
  if a.inp = epsilon then true
  else if isDiacritic a.inp then
    match fds with
    | none => true
    | some v => sIsValidString (v ++ [a.inp])
  else false

/-- `is_possible_transition` (libhfst/src/implementations/HfstBasicTransducer.cc:3735-3792): `some consumed` or no. -/
def isPossible (alphabet : List Sym) (rest : List Sym) (fds : Option (List Sym)) (a : Arc) : Option Bool :=
  match rest with
  | [] => if isFree fds a then some false else none
  | c :: _ =>
    if a.inp = c ∨ ((a.inp = identity ∨ a.inp = unknown) ∧ c ∉ alphabet) then some true
    else if isFree fds a then some false else none

/-- The symbol pair for a transition (libhfst/src/implementations/HfstBasicTransducer.cc:3846-3862); `none` if `at` throws. -/
def arcPair (rest : List Sym) (a : Arc) : Option (Sym × Sym) :=
  if a.inp = identity then rest.head?.map fun c => (c, c)
  else if a.inp = unknown then rest.head?.map fun c => (c, a.out)
  else some (a.inp, a.out)

/-- `push_back_to_two_level_path` (libhfst/src/implementations/HfstBasicTransducer.cc:3678-3692), the path. -/
def pushPath (path : Result) (p : Sym × Sym) (w : Int) : Result := (path.1 + w, path.2 ++ [p])

/-- `push_back_to_two_level_path` (libhfst/src/implementations/HfstBasicTransducer.cc:3678-3692), the flags. -/
def pushFlag (fds : Option (List Sym)) (p : Sym × Sym) : Option (List Sym) :=
  fds.map fun v => if isDiacritic p.1 then v ++ [p.1] else v

/-- `add_to_results` (libhfst/src/implementations/HfstBasicTransducer.cc:3711-3733). -/
def addResult (results : List Result) (path : Result) (finalWeight : Int) (maxWeight : Option Int) : List Result :=
  match maxWeight with
  | none => setInsert results (path.1 + finalWeight, path.2)
  | some m => if ¬ (path.1 + finalWeight > m) then setInsert results (path.1 + finalWeight, path.2) else results

/-- The type of the recursive call of `lookup`: state, rest of the input, path, handler, flags, results. -/
abbrev LookupFn := Nat → List Sym → Result → Handler → Option (List Sym) → List Result → Outcome (List Result)

/-- The loop over the transitions in `lookup` (libhfst/src/implementations/HfstBasicTransducer.cc:3835-3903).  The handler is
changed by a transition that consumes nothing and stays so for the following ones. -/
def lookupLoop (call : LookupFn) (alphabet : List Sym) (k : Nat) (state : Nat) (rest : List Sym) (path : Result)
    (fds : Option (List Sym)) : List Arc → Handler → List Result → Outcome (List Result)
  | [], _, results => .ok results
  | a :: as, eh, results =>
    match isPossible alphabet rest fds a with
    | none => lookupLoop call alphabet k state rest path fds as eh results
    | some consumed =>
      match arcPair rest a with
      | none => .throws
      | some p =>
        let eh' := if consumed then eh else eh.push state
        match call a.target (if consumed then rest.tail else rest) (pushPath path p a.weight)
            (if consumed then Handler.new k else eh') (pushFlag fds p) results with
        | .ok results' => lookupLoop call alphabet k state rest path fds as eh' results'
        | .throws => .throws
        | .undefined => .undefined

/-- Is the maximum weight exceeded (libhfst/src/implementations/HfstBasicTransducer.cc:3810). -/
def overWeight (maxWeight : Option Int) (w : Int) : Bool :=
  match maxWeight with
  | some m => w > m
  | none => false

/-- Is the maximum number of results reached (libhfst/src/implementations/HfstBasicTransducer.cc:3815). -/
def overNumber (maxNumber : Option Nat) (n : Nat) : Bool :=
  match maxNumber with
  | some m => m ≤ n
  | none => false

/-- The recursive `lookup` (libhfst/src/implementations/HfstBasicTransducer.cc:3794-3904).  `maxNumber = none` is a negative
`max_number`. -/
def lookupGo (g : Graph) (k : Nat) (maxWeight : Option Int) (maxNumber : Option Nat) : Nat → LookupFn
  | 0, _, _, _, _, _, _ => .undefined
  | n + 1, state, rest, path, eh, fds, results =>
    let c := eh.canContinue state
    if !c.1 then .ok results
    else if overWeight maxWeight path.1 then .ok results
    else if overNumber maxNumber results.length then .ok results
    else match g.states[state]? with
      | none => .throws
      | some arcs =>
        let results := if rest = [] then
            match g.final state with
            | some w => addResult results path w maxWeight
            | none => results
          else results
        lookupLoop (lookupGo g k maxWeight maxNumber n) g.alphabet k state rest path fds arcs c.2 results

/-- `lookup` (libhfst/src/implementations/HfstBasicTransducer.cc:3906-3938); `results` is what the set contains before. -/
def lookup (fuel : Nat) (g : Graph) (input : List Sym) (maxCycles : Option Nat) (maxWeight : Option Int)
    (maxNumber : Option Nat) (obeyFlags : Bool) (results : List Result) : Outcome (List Result) :=
  let k := maxCycles.getD 100000
  lookupGo g k maxWeight maxNumber fuel 0 input (0, []) (Handler.new k) (if obeyFlags then some [] else none) results

/-! ## Infinite ambiguity -/

/-- The condition of `is_infinitely_ambiguous` (libhfst/src/implementations/HfstBasicTransducer.cc:3510-3511). -/
def noInput (a : Arc) : Bool := a.inp = epsilon || isDiacritic a.inp

/-- The loop over the transitions in `is_infinitely_ambiguous`
(libhfst/src/implementations/HfstBasicTransducer.cc:3504-3527): the answer, `epsilon_path_states` and `states_handled`. -/
def ambLoop (call : Nat → List Nat → List Nat → Outcome (Bool × List Nat × List Nat)) (state : Nat) :
    List Arc → List Nat → List Nat → Outcome (Bool × List Nat × List Nat)
  | [], path, handled => .ok (false, path, handled)
  | a :: as, path, handled =>
    if noInput a then
      let path := setInsert path state
      if a.target ∈ path then .ok (true, path, handled)
      else match call a.target path handled with
        | .ok (true, path, handled) => .ok (true, path, handled)
        | .ok (false, path, handled) => ambLoop call state as (setErase path state) handled
        | .throws => .throws
        | .undefined => .undefined
    else ambLoop call state as path handled

/-- `is_infinitely_ambiguous(state, epsilon_path_states, states_handled)`
(libhfst/src/implementations/HfstBasicTransducer.cc:3494-3530).  `states_handled` is the list of the indices with value 1;
an index outside the vector is undefined. -/
def ambGo (g : Graph) : Nat → Nat → List Nat → List Nat → Outcome (Bool × List Nat × List Nat)
  | 0, _, _, _ => .undefined
  | n + 1, state, path, handled =>
    match g.states[state]? with
    | none => .undefined
    | some arcs =>
      if state ∈ handled then .ok (false, path, handled)
      else match ambLoop (ambGo g n) state arcs path handled with
        | .ok (true, path, handled) => .ok (true, path, handled)
        | .ok (false, path, handled) => .ok (false, path, state :: handled)
        | .throws => .throws
        | .undefined => .undefined

/-- The loop of `is_infinitely_ambiguous()` (libhfst/src/implementations/HfstBasicTransducer.cc:3538-3544). -/
def ambAll (fuel : Nat) (g : Graph) : List Nat → List Nat → List Nat → Outcome Bool
  | [], _, _ => .ok false
  | s :: ss, path, handled =>
    match ambGo g fuel s path handled with
    | .ok (true, _, _) => .ok true
    | .ok (false, path, handled) => ambAll fuel g ss path handled
    | .throws => .throws
    | .undefined => .undefined

/-- `is_infinitely_ambiguous()` (libhfst/src/implementations/HfstBasicTransducer.cc:3532-3546). -/
def isInfinitelyAmbiguous (fuel : Nat) (g : Graph) : Outcome Bool :=
  ambAll fuel g (List.range (g.maxState + 1)) [] []

/-! ## Infinite ambiguity of one input -/

/-- `is_possible_flag` (libhfst/src/implementations/HfstBasicTransducer.cc:3548-3567): the flags after a possible flag. -/
def isPossibleFlag (symbol : Sym) (fds : List Sym) (obeyFlags : Bool) : Option (List Sym) :=
  if isDiacritic symbol then
    if !obeyFlags || sIsValidString (fds ++ [symbol]) then some (fds ++ [symbol]) else none
  else none

/-- Does the transition match the next input symbol (libhfst/src/implementations/HfstBasicTransducer.cc:3620-3633). -/
def matchesInput (alphabet : List Sym) (c : Sym) (a : Arc) : Bool :=
  a.inp = c || ((a.inp = unknown || a.inp = identity) && c ∉ alphabet)

/-- The loop over the transitions in `is_lookup_infinitely_ambiguous`
(libhfst/src/implementations/HfstBasicTransducer.cc:3584-3647): the answer and `epsilon_path_states`. -/
def lookAmbLoop (call : List Sym → Nat → List Nat → List Sym → Outcome (Bool × List Nat)) (alphabet : List Sym)
    (rest : List Sym) (state : Nat) (fds : List Sym) (obeyFlags : Bool) :
    List Arc → List Nat → Outcome (Bool × List Nat)
  | [], path => .ok (false, path)
  | a :: as, path =>
    if a.inp = epsilon ∨ (isPossibleFlag a.inp fds obeyFlags).isSome then
      let path := setInsert path state
      if a.target ∈ path then .ok (true, path)
      else match call rest a.target path ((isPossibleFlag a.inp fds obeyFlags).getD fds) with
        | .ok (true, path) => .ok (true, path)
        | .ok (false, path) => lookAmbLoop call alphabet rest state fds obeyFlags as (setErase path state)
        | .throws => .throws
        | .undefined => .undefined
    else match rest with
      | [] => lookAmbLoop call alphabet rest state fds obeyFlags as path
      | c :: rest' =>
        if matchesInput alphabet c a then
          match call rest' a.target [] fds with
          | .ok (true, _) => .ok (true, path)
          | .ok (false, _) => lookAmbLoop call alphabet rest state fds obeyFlags as path
          | .throws => .throws
          | .undefined => .undefined
        else lookAmbLoop call alphabet rest state fds obeyFlags as path

/-- The recursive `is_lookup_infinitely_ambiguous` (libhfst/src/implementations/HfstBasicTransducer.cc:3569-3649). -/
def lookAmbGo (g : Graph) (obeyFlags : Bool) : Nat → List Sym → Nat → List Nat → List Sym → Outcome (Bool × List Nat)
  | 0, _, _, _, _ => .undefined
  | n + 1, rest, state, path, fds =>
    match g.states[state]? with
    | none => .throws
    | some arcs => lookAmbLoop (lookAmbGo g obeyFlags n) g.alphabet rest state fds obeyFlags arcs path

/-- `is_lookup_infinitely_ambiguous(s, obey_flags)` (libhfst/src/implementations/HfstBasicTransducer.cc:3651-3676). -/
def isLookupInfinitelyAmbiguous (fuel : Nat) (g : Graph) (input : List Sym) (obeyFlags : Bool) : Outcome Bool :=
  match lookAmbGo g obeyFlags fuel input 0 [0] [] with
  | .ok (b, _) => .ok b
  | .throws => .throws
  | .undefined => .undefined

/-! ## Negative epsilon cycles -/

/-- The condition of `has_negative_epsilon_cycles` (libhfst/src/implementations/HfstBasicTransducer.cc:3449-3450). -/
def epsEps (a : Arc) : Bool := a.inp = epsilon && a.out = epsilon

/-- The loop over the transitions in `has_negative_epsilon_cycles`
(libhfst/src/implementations/HfstBasicTransducer.cc:3447-3457): the answer and `state_weights`. -/
def negLoop (call : Nat → Int → List (Nat × Int) → Outcome (Bool × List (Nat × Int))) (total : Int) :
    List Arc → List (Nat × Int) → Outcome (Bool × List (Nat × Int))
  | [], ws => .ok (false, ws)
  | a :: as, ws =>
    if epsEps a then
      match call a.target (total + a.weight) ws with
      | .ok (true, ws) => .ok (true, ws)
      | .ok (false, ws) => negLoop call total as ws
      | .throws => .throws
      | .undefined => .undefined
    else negLoop call total as ws

/-- `has_negative_epsilon_cycles(state, total_weight, state_weights)`
(libhfst/src/implementations/HfstBasicTransducer.cc:3429-3460). -/
def negGo (g : Graph) : Nat → Nat → Int → List (Nat × Int) → Outcome (Bool × List (Nat × Int))
  | 0, _, _, _ => .undefined
  | n + 1, state, total, ws =>
    match mapGet ws state with
    | some w => .ok (decide (total - w < 0), ws)
    | none =>
      match g.states[state]? with
      | none => .throws
      | some arcs =>
        match negLoop (negGo g n) total arcs (mapPut ws state total) with
        | .ok (true, ws) => .ok (true, ws)
        | .ok (false, ws) => .ok (false, mapErase ws state)
        | .throws => .throws
        | .undefined => .undefined

/-- The loop over the states (libhfst/src/implementations/HfstBasicTransducer.cc:3484-3491). -/
def negAll (fuel : Nat) (g : Graph) : List Nat → List (Nat × Int) → Outcome Bool
  | [], _ => .ok false
  | s :: ss, ws =>
    match negGo g fuel s 0 ws with
    | .ok (true, _) => .ok true
    | .ok (false, ws) => negAll fuel g ss ws
    | .throws => .throws
    | .undefined => .undefined

/-- `has_negative_epsilon_cycles()` (libhfst/src/implementations/HfstBasicTransducer.cc:3462-3492). -/
def hasNegativeEpsilonCycles (fuel : Nat) (g : Graph) : Outcome Bool :=
  if g.states.any fun l => l.any fun a => epsEps a && decide (a.weight < 0) then
    negAll fuel g (List.range (g.maxState + 1)) []
  else .ok false

end Hfst.Basic
