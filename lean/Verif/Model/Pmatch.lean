import Verif.Model.OlLookup
import Verif.Model.OlEncode

/-!
# Pattern matching

Model of the matching functions of `PmatchContainer`, `PmatchTransducer` and `PmatchAlphabet`
(libhfst/src/implementations/optimized-lookup/pmatch.cc).

* Containers without the symbols of contexts (`@PMATCH_LC_ENTRY@` and so on): then `context` is always `none`, and the branches for contexts and
  for the pass-through symbol after them are not reached.  They are not modelled.
* No time limit (`max_time` is 0).  Counting and profiling, which only count, and messages are left out.
* Weights are integers; `weightOf` gives the weight of the bits in a table.
* A search goes no deeper than `recursion_depth_left`; this number is the argument of the recursion.
-/
namespace Hfst.Pmatch
open Hfst.Basic Hfst.Ol

/-- The tables of a `PmatchTransducer` and its `orig_symbol_count` (libhfst/src/implementations/optimized-lookup/pmatch.h:369-373). -/
structure Tables where
  indices : List Index
  transitions : List Trans
  orig : Nat

/-- `PmatchAlphabet` (libhfst/src/implementations/optimized-lookup/pmatch.h:57-82).  The numbers of the special symbols are `noSymbol` if there is
no such symbol.  `endTags` has the names of the end tags, `rtns` the numbers of transducers, and the three functions say what a symbol is in
Unicode (libhfst/src/implementations/optimized-lookup/transducer.cc:141-183). -/
structure PmAlphabet where
  base : Alphabet
  fd : Flags.FdTable Nat
  entry : Nat
  exit : Nat
  passthrough : Nat
  boundary : Nat
  alpha : Nat
  upper : Nat
  lower : Nat
  space : Nat
  inputMark : Nat
  endTags : List (Nat × Bytes)
  capture2captured : List Nat
  captured2capture : List Nat
  symbol2lists : List Nat
  list2symbols : List Nat
  symbolLists : List (List Nat)
  exclusions : List Nat
  globalFlags : List Bool
  printable : List Bool
  rtns : List (Option Nat)
  isUpper : Nat → Bool
  isLower : Nat → Bool
  isSpace : Nat → Bool

/-- `PmatchAlphabet::is_printable` (libhfst/src/implementations/optimized-lookup/pmatch.cc:192-196). -/
def PmAlphabet.isPrintable (al : PmAlphabet) (x : Nat) : Bool := (al.printable[x]?).getD false

/-- `PmatchAlphabet::is_end_tag` (libhfst/src/implementations/optimized-lookup/pmatch.cc:866-870). -/
def PmAlphabet.isEndTag (al : PmAlphabet) (x : Nat) : Bool := al.endTags.any fun e => e.1 == x

/-- `PmatchAlphabet::start_tag` (libhfst/src/implementations/optimized-lookup/pmatch.cc:1038-1049). -/
def PmAlphabet.startTag (al : PmAlphabet) (x : Nat) : Bytes := match mapGet al.endTags x with
  | none => []
  | some s => [60] ++ s ++ [62]

/-- `PmatchAlphabet::end_tag` (libhfst/src/implementations/optimized-lookup/pmatch.cc:1025-1036). -/
def PmAlphabet.endTag (al : PmAlphabet) (x : Nat) : Bytes := match mapGet al.endTags x with
  | none => []
  | some s => [60, 47] ++ s ++ [62]

/-- `PmatchAlphabet::is_meta_arc` (libhfst/src/implementations/optimized-lookup/pmatch.cc:1008-1016). -/
def PmAlphabet.isMeta (al : PmAlphabet) (x : Nat) : Bool :=
  al.base.isMeta x || decide (x = al.alpha ∨ x = al.upper ∨ x = al.lower ∨ x = al.space)

/-- `PmatchAlphabet::has_rtn` and `get_rtn` (libhfst/src/implementations/optimized-lookup/pmatch.cc:1174-1184). -/
def PmAlphabet.rtn (al : PmAlphabet) (x : Nat) : Option Nat := (al.rtns[x]?).getD none

/-- `string_from_symbol` (libhfst/src/implementations/optimized-lookup/transducer.h:435-437). -/
def PmAlphabet.string (al : PmAlphabet) (x : Nat) : Outcome Bytes := match al.base.string x with
  | none => .undefined
  | some s => .ok s

/-- `Capture` (libhfst/src/implementations/optimized-lookup/pmatch.h:142-147). -/
structure Capture where
  first : Nat
  last : Nat
  name : Nat
  deriving DecidableEq

/-- What does not change during matching (libhfst/src/implementations/optimized-lookup/pmatch.h:149-207): the alphabet, the transducers (the
first one is the top level), the input, `max_weight` and whether locations are wanted. -/
structure Config where
  al : PmAlphabet
  nets : List Tables
  weightOf : Nat → Int
  input : List Nat
  maxWeight : Option Int
  locate : Bool
  oldCaptures : List Capture

/-- The test for `max_weight` (libhfst/src/implementations/optimized-lookup/pmatch.cc:2386-2389). -/
def Config.tooHeavy (C : Config) (w : Int) : Bool := match C.maxWeight with
  | none => false
  | some m => decide (m < w)

/-- `LocalVariables` (libhfst/src/implementations/optimized-lookup/pmatch.h:352-365), without the variables for contexts. -/
structure Locals where
  flags : Flags.FdState
  trap : Bool

/-- What changes during matching (libhfst/src/implementations/optimized-lookup/pmatch.h:157-207, 367); `stacks` are the `local_stack`s, the top
comes first.  The last elements of `entries`, `captures` and of the members of `calls` come first. -/
structure State where
  tape : List (Nat × Nat)
  entries : List Nat
  captures : List Capture
  weight : Int
  depth : Nat
  calls : List (List (Nat × Nat))
  stacks : Nat → List Locals
  globals : Flags.FdState
  bestResult : List (Nat × Nat)
  bestCaptures : List Capture
  bestPos : Nat
  bestWeight : Int
  found : List (List (Nat × Nat) × Int)

/-- A call of `get_analyses` of a transducer with the places in the input, on the tape and in the tables
(libhfst/src/implementations/optimized-lookup/pmatch.cc:2383-2384). -/
abbrev Call := Nat → Nat → Nat → Nat → State → Outcome State

/-- The top of a `local_stack`. -/
def State.top (s : State) (t : Nat) : Option Locals := (s.stacks t).head?

/-- Changing the top of a `local_stack`; nothing happens without a top, and the callers make sure that there is one. -/
def State.setTop (s : State) (t : Nat) (v : Locals) : State :=
  { s with stacks := fun u => if u = t then v :: (s.stacks t).tail else s.stacks u }

/-- `local_stack.push`. -/
def State.push (s : State) (t : Nat) (v : Locals) : State :=
  { s with stacks := fun u => if u = t then v :: s.stacks t else s.stacks u }

/-- `local_stack.pop`. -/
def State.pop (s : State) (t : Nat) : State := { s with stacks := fun u => if u = t then (s.stacks t).tail else s.stacks u }

/-- `PmatchTransducer::make_transition_table_index` (libhfst/src/implementations/optimized-lookup/pmatch.h:393-404). -/
def tableIndex (T : Tables) (i x : Nat) : Outcome Nat :=
  if targetStart ≤ i then .ok (i - targetStart)
  else match T.indices[i + x]? with
    | none => .undefined
    | some e => if e.input = x then .ok (e.target - targetStart) else .ok targetStart

/-- `PmatchTransducer::is_final` and `get_weight` (libhfst/src/implementations/optimized-lookup/pmatch.h:375-391): the final weight, if the state
is final. -/
def finalAt (C : Config) (T : Tables) (i : Nat) : Outcome (Option Int) :=
  if targetStart ≤ i then match T.transitions[i - targetStart]? with
    | none => .undefined
    | some t => .ok (if t.final then some (C.weightOf t.weight) else none)
  else match T.indices[i]? with
    | none => .undefined
    | some e => .ok (if e.final then some (C.weightOf e.target) else none)

/-- `PmatchContainer::input_matches_at` (libhfst/src/implementations/optimized-lookup/pmatch.cc:1626-1643). -/
def matchesAt (input : List Nat) (pos first last : Nat) : Outcome Bool :=
  if last < first then .undefined
  else if input.length ≤ pos + (last - first) then .ok false
  else .ok (decide ((input.drop pos).take (last - first) = (input.drop first).take (last - first)))

/-- The loops of `PmatchContainer::get_longest_matching_capture` (libhfst/src/implementations/optimized-lookup/pmatch.cc:2068-2101); the result
is the part of the input from the first number to the second. -/
def longestCapture (input : List Nat) (key pos : Nat) : List Capture → Nat × Nat → Outcome (Nat × Nat)
  | [], best => .ok best
  | c :: cs, best =>
    if key = c.name then
      (matchesAt input pos c.first c.last).bind fun b =>
        if b = true ∧ best.2 - best.1 < c.last - c.first then longestCapture input key pos cs (c.first, c.last)
        else longestCapture input key pos cs best
    else longestCapture input key pos cs best

/-- `DoubleTape::write` for a part of the input (libhfst/src/implementations/optimized-lookup/transducer.h:865-877). -/
def writeAll (tape : List (Nat × Nat)) (pos : Nat) : List Nat → List (Nat × Nat)
  | [] => tape
  | x :: xs => writeAll (writeTape tape pos (x, x)) (pos + 1) xs

/-- `PmatchContainer::push_rtn_call` (libhfst/src/implementations/optimized-lookup/pmatch.cc:1121-1136). -/
def State.pushCall (s : State) (frame : Nat × Nat) : State :=
  if s.calls.length ≤ s.depth then { s with calls := s.calls ++ [[frame]] }
  else { s with calls := s.calls.set s.depth (frame :: (s.calls[s.depth]?).getD []) }

/-- `PmatchContainer::rtn_stack_pop` (libhfst/src/implementations/optimized-lookup/pmatch.cc:1150-1154). -/
def State.popCall (s : State) : State := { s with calls := s.calls.set s.depth ((s.calls[s.depth]?).getD []).tail }

/-- `PmatchTransducer::rtn_call` (libhfst/src/implementations/optimized-lookup/pmatch.cc:1946-1964): the transducer `t` is called by `caller`. -/
def rtnCall (C : Config) (call : Call) (t ip tp caller target : Nat) (s : State) : Outcome State :=
  let s := s.pushCall (caller, target)
  match s.top t with
  | none => .undefined
  | some _ =>
    (call t ip tp 0 ({ s with depth := s.depth + 1 }.push t ⟨.init C.al.fd.numFeatures, false⟩)).bind fun s =>
      match s.depth with
      | 0 => .throws
      | d + 1 => .ok ({ s.pop t with depth := d }.popCall)

/-- `PmatchTransducer::take_flag` after the global flags (libhfst/src/implementations/optimized-lookup/pmatch.cc:2295-2308); `old` are the values of
the global flags before, if the flag is global. -/
def takeLocalFlag (C : Config) (call : Call) (t : Nat) (o : Flags.FdOperation) (old : Option (List Int)) (ip tp target : Nat) (s : State) :
    Outcome State :=
  match s.top t with
  | none => .undefined
  | some l => match l.flags.apply o with
    | none => .undefined
    | some (ok, fs) =>
      (if ok = true then call t ip tp target (s.setTop t { l with flags := fs }) else .ok (s.setTop t { l with flags := fs })).bind fun s' =>
        match s'.top t with
        | none => .undefined
        | some l' => match old with
          | none => .ok (s'.setTop t { l' with flags := l'.flags.assign C.al.fd.numFeatures l.flags.values })
          | some vs => .ok { s'.setTop t { l' with flags := l'.flags.assign C.al.fd.numFeatures l.flags.values } with
              globals := s'.globals.assign C.al.fd.numFeatures vs }

/-- `PmatchTransducer::take_flag` (libhfst/src/implementations/optimized-lookup/pmatch.cc:2280-2309). -/
def takeFlag (C : Config) (call : Call) (t x ip tp target : Nat) (s : State) : Outcome State :=
  match C.al.fd.getOperation x, C.al.globalFlags[x]? with
  | some o, some false => takeLocalFlag C call t o none ip tp target s
  | some o, some true => match s.globals.apply o with
    | none => .undefined
    | some (false, fs) => .ok { s with globals := fs }
    | some (true, fs) => takeLocalFlag C call t o (some s.globals.values) ip tp target { s with globals := fs }
  | _, _ => .undefined

/-- An epsilon transition in `take_epsilons` (libhfst/src/implementations/optimized-lookup/pmatch.cc:2162-2231). -/
def takeEpsilon (C : Config) (call : Call) (t ip tp output target : Nat) (s : State) : Outcome State :=
  let s := { s with tape := writeTape s.tape tp (0, output) }
  if output = C.al.entry then
    (call t ip (tp + 1) target { s with entries := ip :: s.entries }).bind fun s => .ok { s with entries := s.entries.tail }
  else if output = C.al.exit then
    match s.entries with
    | [] => .undefined
    | x :: rest => (call t ip (tp + 1) target { s with entries := rest }).bind fun s => .ok { s with entries := x :: s.entries }
  else match C.al.capture2captured[output]?, C.al.captured2capture[output]? with
    | some c, some d =>
      if c ≠ noSymbol then
        match s.entries with
        | [] => .undefined
        | x :: _ => (call t ip (tp + 1) target { s with captures := ⟨x, ip, output⟩ :: s.captures }).bind fun s =>
            .ok { s with captures := s.captures.tail }
      else if d ≠ noSymbol then
        (longestCapture C.input d ip s.captures.reverse (0, 0)).bind fun best =>
          (longestCapture C.input d ip C.oldCaptures best).bind fun best =>
            if best.2 - best.1 ≠ 0 then
              call t (ip + (best.2 - best.1)) (tp + (best.2 - best.1)) target
                { s with tape := writeAll s.tape tp ((C.input.drop best.1).take (best.2 - best.1)) }
            else .ok s
      else call t ip (tp + 1) target s
    | _, _ => .undefined

/-- `PmatchTransducer::take_epsilons` (libhfst/src/implementations/optimized-lookup/pmatch.cc:2109-2244). -/
def takeEpsilons (C : Config) (call : Call) (T : Tables) (t ip tp : Nat) : Nat → Nat → State → Outcome State
  | 0, _, _ => .undefined
  | n + 1, i, s =>
    if targetStart ≤ i then .ok s
    else match T.transitions[i]? with
      | none => .undefined
      | some e =>
        if e.input ≠ 0 ∧ (C.al.fd.getOperation e.input).isSome = false ∧ C.al.rtn e.input = none then .ok s
        else
          let s1 := { s with weight := s.weight + C.weightOf e.weight }
          (if e.input = 0 then takeEpsilon C call t ip tp e.output e.target s1
            else if (C.al.fd.getOperation e.input).isSome = true then takeFlag C call t e.input ip tp e.target s1
            else match C.al.rtn e.input with
              | none => .ok s1
              | some u => rtnCall C call u ip tp t e.target s1).bind fun s2 =>
            takeEpsilons C call T t ip tp n (i + 1) { s2 with weight := s.weight }

/-- A transition in `take_transitions` (libhfst/src/implementations/optimized-lookup/pmatch.cc:2333-2354, 2373-2374). -/
def takeSymbol (C : Config) (call : Call) (t ip tp x output target : Nat) (w : Int) (s : State) : Outcome State :=
  match C.al.list2symbols[output]?, C.input[ip]? with
  | some l, some c =>
    let p := if C.al.isMeta output = true ∨ l ≠ noSymbol then (c, c) else (x, output)
    (if p.1 = C.al.passthrough then call t ip tp target { s with weight := s.weight + w }
      else call t (ip + 1) (tp + 1) target { s with weight := s.weight + w, tape := writeTape s.tape tp p }).bind fun s' =>
      match s'.top t with
      | none => .undefined
      | some v => .ok { s'.setTop t { v with trap := false } with weight := s.weight }
  | _, _ => .undefined

/-- The loop of `PmatchTransducer::take_transitions` (libhfst/src/implementations/optimized-lookup/pmatch.cc:2318-2380). -/
def takeLoop (C : Config) (call : Call) (T : Tables) (t x ip tp : Nat) : Nat → Nat → State → Outcome State
  | 0, _, _ => .undefined
  | n + 1, i, s =>
    if targetStart ≤ i then .ok s
    else match T.transitions[i]? with
      | none => .undefined
      | some e =>
        if e.input = noSymbol then .ok s
        else if e.input = x then
          (takeSymbol C call t ip tp x e.output e.target (C.weightOf e.weight) s).bind fun s => takeLoop C call T t x ip tp n (i + 1) s
        else .ok s

/-- `PmatchTransducer::take_transitions` (libhfst/src/implementations/optimized-lookup/pmatch.cc:2311-2380). -/
def takeTransitions (C : Config) (call : Call) (T : Tables) (t x ip tp i : Nat) (s : State) : Outcome State :=
  (tableIndex T i x).bind fun j => takeLoop C call T t x ip tp (T.transitions.length + 1) j s

/-- Taking the transitions with several symbols, one after the other
(libhfst/src/implementations/optimized-lookup/pmatch.cc:2443-2504). -/
def takeEach (C : Config) (call : Call) (T : Tables) (t ip tp i : Nat) : List Nat → State → Outcome State
  | [], s => .ok s
  | x :: xs, s => (takeTransitions C call T t x ip tp i s).bind fun s => takeEach C call T t ip tp i xs s

/-- `PmatchContainer::note_analysis` (libhfst/src/implementations/optimized-lookup/pmatch.cc:2014-2037). -/
def noteAnalysis (ip tp : Nat) (s : State) : Outcome State :=
  if s.bestPos < ip ∨ (ip = s.bestPos ∧ s.weight < s.bestWeight) then
    if s.tape.length < tp then .throws
    else .ok { s with bestResult := s.tape.take tp, bestCaptures := s.captures, bestPos := ip, bestWeight := s.weight }
  else .ok s

/-- `PmatchContainer::grab_location` (libhfst/src/implementations/optimized-lookup/pmatch.cc:2039-2060). -/
def grabLocation (ip tp : Nat) (s : State) : Outcome State :=
  if s.found ≠ [] ∧ ip < s.bestPos then .ok s
  else if s.tape.length < tp then .throws
  else
    let found := if s.found ≠ [] ∧ s.bestPos < ip then [] else s.found
    .ok { s with bestPos := ip, bestCaptures := s.captures, found := found ++ [(s.tape.take tp, s.weight)] }

/-- `PmatchTransducer::handle_final_state` and `rtn_return` (libhfst/src/implementations/optimized-lookup/pmatch.cc:1984-2012). -/
def handleFinal (C : Config) (call : Call) (ip tp : Nat) (s : State) : Outcome State :=
  match s.depth with
  | d + 1 => match (s.calls[d]?).getD [] with
    | [] => .undefined
    | (caller, target) :: _ => (call caller ip tp target { s with depth := d }).bind fun s => .ok { s with depth := s.depth + 1 }
  | 0 => if C.locate then grabLocation ip tp s else noteAnalysis ip tp s

/-- The list symbols that allow a symbol (libhfst/src/implementations/optimized-lookup/pmatch.cc:2443-2453). -/
def listsAt (C : Config) (l : Nat) : Outcome (List Nat) :=
  if l = noSymbol then .ok []
  else match C.al.symbolLists[l]? with
    | none => .undefined
    | some xs => .ok xs

/-- The symbols whose transitions are tried for an input symbol, before the default symbol
(libhfst/src/implementations/optimized-lookup/pmatch.cc:2443-2504). -/
def tried (C : Config) (T : Tables) (c : Nat) : Outcome (List Nat) :=
  match C.al.symbol2lists[c]? with
  | none => .undefined
  | some l =>
    (listsAt C l).bind fun lists =>
      .ok (lists ++
        (if C.al.alpha ≠ noSymbol ∧ (C.al.isLower c = true ∨ C.al.isUpper c = true) then [C.al.alpha] else []) ++
        (if C.al.upper ≠ noSymbol ∧ C.al.isUpper c = true then [C.al.upper] else []) ++
        (if C.al.lower ≠ noSymbol ∧ C.al.isLower c = true then [C.al.lower] else []) ++
        (if C.al.space ≠ noSymbol ∧ C.al.isSpace c = true then [C.al.space] else []) ++
        (if c < T.orig then [c]
          else (if C.al.base.identity ≠ noSymbol then [C.al.base.identity] else []) ++
            (if C.al.base.unknown ≠ noSymbol then [C.al.base.unknown] else [])))

/-- What `get_analyses` does in a final state (libhfst/src/implementations/optimized-lookup/pmatch.cc:2423-2430). -/
def finish (C : Config) (call : Call) (f : Option Int) (ip tp : Nat) (s : State) : Outcome State := match f with
  | none => .ok s
  | some w => (handleFinal C call ip tp { s with weight := s.weight + w }).bind fun s' => .ok { s' with weight := s.weight }

/-- `PmatchTransducer::get_analyses` (libhfst/src/implementations/optimized-lookup/pmatch.cc:2382-2512). -/
def getAnalyses (C : Config) : Nat → Call
  | 0, _, _, _, _, s => .ok s
  | d + 1, t, ip, tp, i, s =>
    if C.tooHeavy s.weight = true then .ok s
    else match C.nets[t]?, s.top t with
      | some T, some v =>
        (tableIndex T (i + 1) 0).bind fun j =>
        (takeEpsilons C (getAnalyses C d) T t ip tp (T.transitions.length + 1) j (s.setTop t { v with trap := true })).bind fun s =>
        (finalAt C T i).bind fun f =>
        (finish C (getAnalyses C d) f ip tp s).bind fun s =>
        match C.input[ip]? with
        | none => .ok s
        | some c =>
          (tried C T c).bind fun xs =>
          (takeEach C (getAnalyses C d) T t ip tp (i + 1) xs s).bind fun s =>
            match s.top t with
            | none => .undefined
            | some v =>
              if C.al.base.default ≠ noSymbol ∧ v.trap = true then takeTransitions C (getAnalyses C d) T t C.al.base.default ip tp (i + 1) s
              else .ok s
      | _, _ => .undefined

/-- `PmatchTransducer::match` (libhfst/src/implementations/optimized-lookup/pmatch.cc:1936-1944). -/
def topMatch (C : Config) (depth ip : Nat) (s : State) : Outcome State := match s.top 0 with
  | none => .undefined
  | some v => getAnalyses C depth 0 ip 0 0 (s.setTop 0 { v with trap := false })

/-- `Location` (libhfst/src/implementations/optimized-lookup/pmatch.h:318-334).  The strings `input` and `output` are what the vectors of symbol
strings say, except for the output of what does not match; `middle` is not used here. -/
structure Location where
  start : Nat
  length : Nat
  input : Bytes
  output : Bytes
  tag : Bytes
  weight : Int
  inputParts : List Nat
  outputParts : List Nat
  inputSymbols : List Bytes
  outputSymbols : List Bytes
  deriving DecidableEq

/-- The loop of `PmatchAlphabet::locatefy` (libhfst/src/implementations/optimized-lookup/pmatch.cc:1554-1594); the last two arguments are the
input and output marks. -/
def locateLoop (al : PmAlphabet) : List (Nat × Nat) → Location → Nat → Nat → Outcome (Location × Nat × Nat)
  | [], l, im, om => .ok (l, im, om)
  | p :: ps, l, im, om =>
    if al.isEndTag p.2 = true then locateLoop al ps { l with tag := al.startTag p.2 } im om
    else
      (if al.isPrintable p.2 = true then (al.string p.2).bind fun x => .ok { l with output := l.output ++ x, outputSymbols := l.outputSymbols ++ [x] }
        else .ok l).bind fun l =>
      (if al.isPrintable p.1 = true then (al.string p.1).bind fun x =>
          .ok { l with input := l.input ++ x, inputSymbols := l.inputSymbols ++ [x], length := l.length + 1 }
        else .ok l).bind fun l =>
      if p.2 = al.inputMark then
        locateLoop al ps { l with outputParts := l.outputParts ++ [om], inputParts := l.inputParts ++ [im] } l.inputSymbols.length l.outputSymbols.length
      else locateLoop al ps l im om

/-- `PmatchAlphabet::locatefy` (libhfst/src/implementations/optimized-lookup/pmatch.cc:1542-1605). -/
def locatefy (al : PmAlphabet) (start : Nat) (tape : List (Nat × Nat)) (w : Int) : Outcome Location :=
  (locateLoop al tape ⟨start, 0, [], [], [], w, [], [], [], []⟩ 0 0).bind fun r =>
    .ok { r.1 with
      outputParts := if 0 < r.2.2 then r.1.outputParts ++ [r.2.2] else r.1.outputParts,
      inputParts := if 0 < r.2.1 then r.1.inputParts ++ [r.2.1] else r.1.inputParts }

/-- `locatefy` for several tapes (libhfst/src/implementations/optimized-lookup/pmatch.cc:1283-1294). -/
def locateAll (al : PmAlphabet) (start : Nat) : List (List (Nat × Nat) × Int) → Outcome (List Location)
  | [] => .ok []
  | x :: xs => (locatefy al start x.1 x.2).bind fun l => (locateAll al start xs).bind fun ls => .ok (l :: ls)

/-- The output of what does not match, `@_NONMATCHING_@` (libhfst/src/implementations/optimized-lookup/pmatch.cc:1272). -/
def nonmatching : Bytes := "@_NONMATCHING_@".toList.map fun c => c.toNat.toUInt8

/-- Noting what did not match (libhfst/src/implementations/optimized-lookup/pmatch.cc:1262-1281, 1322-1339). -/
def noteRest (al : PmAlphabet) (printable : Nat) (rest : List (Nat × Nat)) (ls : List (List Location)) : Outcome (List (List Location)) :=
  if rest = [] then .ok ls
  else (locatefy al (printable - rest.length) rest 0).bind fun l => .ok (ls ++ [[{ l with output := nonmatching }]])

/-- What changes from match to match (libhfst/src/implementations/optimized-lookup/pmatch.cc:1222-1235): the place in the input, the number of
printable symbols so far, the result, the locations, what did not match, and the captures. -/
structure Progress where
  pos : Nat
  printable : Nat
  result : List (Nat × Nat)
  locations : List (List Location)
  rest : List (Nat × Nat)
  oldCaptures : List Capture
  state : State

/-- A symbol is copied (libhfst/src/implementations/optimized-lookup/pmatch.cc:1242-1249, 1311-1318). -/
def Progress.copy (C : Config) (P : Progress) (c : Nat) : Progress :=
  { P with
    result := P.result ++ [(c, c)]
    pos := P.pos + 1
    printable := if C.locate = true ∧ C.al.isPrintable c = true then P.printable + 1 else P.printable
    rest := if C.locate = true ∧ C.al.isPrintable c = true then P.rest ++ [(c, c)] else P.rest }

/-- What is done with a match (libhfst/src/implementations/optimized-lookup/pmatch.cc:1256-1304); `order` is `std::sort` of locations by weight. -/
def Progress.take (order : List Location → List Location) (C : Config) (P : Progress) (s : State) : Outcome Progress :=
  (if C.locate = true then
    (noteRest C.al P.printable P.rest P.locations).bind fun ls =>
    (locateAll C.al P.printable s.found).bind fun l =>
      .ok { P with locations := ls ++ [order l], rest := [], printable := P.printable + (s.bestPos - P.pos) }
  else .ok { P with result := P.result ++ s.bestResult }).bind fun P =>
  .ok { P with pos := s.bestPos, oldCaptures := P.oldCaptures ++ s.bestCaptures.reverse, state := s }

/-- `PmatchContainer::candidate_found` (libhfst/src/implementations/optimized-lookup/pmatch.h:292-299). -/
def State.candidate (s : State) (locate : Bool) : Bool := if locate then decide (s.found ≠ []) else decide (s.bestResult ≠ [])

/-- A round of the loop of `PmatchContainer::process` (libhfst/src/implementations/optimized-lookup/pmatch.cc:1238-1320).  `first` are the
`possible_first_symbols` (libhfst/src/implementations/optimized-lookup/pmatch.h:247-254). -/
def round (order : List Location → List Location) (C : Config) (depth : Nat) (first : List Bool) (c : Nat) (P : Progress) : Outcome Progress :=
  if first ≠ [] ∧ (first[c]?).getD false = false then
    .ok ({ P with state := { P.state with bestResult := [] } }.copy C c)
  else
    (topMatch { C with oldCaptures := P.oldCaptures } depth P.pos { P.state with bestResult := [], tape := [], found := [] }).bind fun s =>
      (if s.candidate C.locate = true then P.take order C s else .ok { P with state := s }).bind fun P' =>
        if s.candidate C.locate = false ∨ P'.pos = P.pos then .ok (P'.copy C c) else .ok P'

/-- The loop of `PmatchContainer::process` (libhfst/src/implementations/optimized-lookup/pmatch.cc:1236-1321). -/
def processLoop (order : List Location → List Location) (C : Config) (depth : Nat) (first : List Bool) : Nat → Progress → Outcome Progress
  | 0, _ => .undefined
  | n + 1, P => match C.input[P.pos]? with
    | none => .ok P
    | some c => (round order C depth first c P).bind fun P => processLoop order C depth first n P

/-- `PmatchContainer::process` (libhfst/src/implementations/optimized-lookup/pmatch.cc:1214-1340) after the input was read, in the state `s` that
earlier calls have left: the result and the locations. -/
def process (order : List Location → List Location) (C : Config) (depth : Nat) (first : List Bool) (s : State) :
    Outcome (List (Nat × Nat) × List (List Location)) :=
  (processLoop order C depth first (C.input.length + 1)
    ⟨0, 0, [], [], [], [], { s with weight := 0, depth := 0, bestPos := 0, bestCaptures := [], captures := [] }⟩).bind fun P =>
    (if C.locate = true then noteRest C.al P.printable P.rest P.locations else .ok P.locations).bind fun ls => .ok (P.result, ls)

/-! ## From text to text -/

/-- `PmatchAlphabet::add_symbol` (libhfst/src/implementations/optimized-lookup/pmatch.cc:166-190).  The members of lists are not modelled; they
are not used in matching. -/
def PmAlphabet.addSymbol (al : PmAlphabet) (x : Bytes) : PmAlphabet :=
  { al with
    base := { al.base with table := al.base.table ++ [x] }
    symbol2lists := al.symbol2lists ++ [if al.exclusions = [] then noSymbol else al.symbolLists.length]
    list2symbols := al.list2symbols ++ [noSymbol]
    capture2captured := al.capture2captured ++ [noSymbol]
    captured2capture := al.captured2capture ++ [noSymbol]
    rtns := al.rtns ++ [none]
    printable := al.printable ++ [true]
    symbolLists := if al.exclusions = [] then al.symbolLists else al.symbolLists ++ [al.exclusions] }

/-- How text is cut into symbols: `single_codepoint_tokenization`, and `nByte_grapheme`, which asks ICU how many bytes the first character has
(libhfst/src/implementations/optimized-lookup/pmatch.cc:20-67). -/
structure Cutter where
  single : Bool
  bytes : Bytes → Nat

/-- Finding the next symbol: its number and how far the pointer moves (libhfst/src/implementations/optimized-lookup/pmatch.cc:1882-1904).  `k`
is the number of the symbol before. -/
def Cutter.find (K : Cutter) (e : Encoder) (s : Bytes) (k : Nat) : Outcome (Nat × Nat) :=
  if K.single = true then
    if 0 < K.bytes s then
      if s.length < K.bytes s then .undefined
      else (e.find (s.take (K.bytes s))).bind fun r => .ok (r.1, K.bytes s)
    else .ok (k, 0)
  else e.find s

/-- The loop of `PmatchContainer::initialize_input` (libhfst/src/implementations/optimized-lookup/pmatch.cc:1879-1928).  The member
`symbol_count` is the length of the symbol table.  The first argument is the number of rounds still allowed. -/
def cutText (K : Cutter) : Nat → Bytes → Nat → PmAlphabet → Encoder → Outcome (List Nat × PmAlphabet × Encoder)
  | 0, _, _, _, _ => .undefined
  | _ + 1, [], _, al, e => .ok ([], al, e)
  | n + 1, c :: rest, k, al, e =>
    (K.find e (c :: rest) k).bind fun r =>
      if r.1 = noSymbol then
        let m := if K.bytes (c :: rest) = 0 then 1 else K.bytes (c :: rest)
        if (c :: rest).length < m then .undefined
        else
          let x := (c :: rest).take m
          (e.readSymbol x al.base.table.length).bind fun e' =>
            (cutText K n ((c :: rest).drop m) al.base.table.length (al.addSymbol x) e').bind fun q =>
              .ok (al.base.table.length :: q.1, q.2)
      else if (c :: rest).length < r.2 then .undefined
      else (cutText K n ((c :: rest).drop r.2) r.1 al e).bind fun q => .ok (r.1 :: q.1, q.2)

/-- The boundary symbol, if there is one (libhfst/src/implementations/optimized-lookup/pmatch.cc:1875-1878, 1929-1932). -/
def PmAlphabet.edge (al : PmAlphabet) : List Nat := if al.boundary = noSymbol then [] else [al.boundary]

/-- The members of a container that do not change (libhfst/src/implementations/optimized-lookup/pmatch.h:149-207). -/
structure Container where
  nets : List Tables
  weightOf : Nat → Int
  cutter : Cutter
  depth : Nat
  first : List Bool
  extract : Bool
  delete : Bool
  mark : Bool

/-- The loop of `PmatchAlphabet::stringify` (libhfst/src/implementations/optimized-lookup/pmatch.cc:1478-1538): the string, the places of start
tags (the top first), and whether the input had a printable symbol. -/
def stringLoop (al : PmAlphabet) (X : Container) : List (Nat × Nat) → Bytes → List Nat → Bool → Outcome Bytes
  | [], r, _, _ => .ok r
  | p :: ps, r, tags, b =>
    let b := b || al.isPrintable p.1
    if p.2 = al.entry then stringLoop al X ps r (r.length :: tags) b
    else if p.2 = al.exit then stringLoop al X ps r tags.tail b
    else if al.isEndTag p.2 = true then
      let pos := tags.headD 0
      if r.length < pos then .throws
      else if X.delete = true then stringLoop al X ps (r.take pos ++ al.startTag p.2) tags b
      else if X.mark = true ∧ b = true then
        stringLoop al X ps (r.take pos ++ al.startTag p.2 ++ r.drop pos ++ al.endTag p.2) tags b
      else stringLoop al X ps r tags b
    else if (X.extract = false ∨ tags ≠ []) ∧ al.isPrintable p.2 = true then
      (al.string p.2).bind fun x => stringLoop al X ps (r ++ x) tags b
    else stringLoop al X ps r tags b

/-- What a container keeps from text to text: the alphabet and the encoder, which get new symbols
(libhfst/src/implementations/optimized-lookup/pmatch.h:152-155). -/
structure Memory where
  al : PmAlphabet
  enc : Encoder

/-- `process` for a text (libhfst/src/implementations/optimized-lookup/pmatch.cc:1214-1340, 1866-1934): the result, the locations, and the
alphabet and the encoder afterwards. -/
def processText (order : List Location → List Location) (X : Container) (locate : Bool) (maxWeight : Option Int) (fuel : Nat) (m : Memory)
    (text : Bytes) (s : State) : Outcome ((List (Nat × Nat) × List (List Location)) × Memory) :=
  (cutText X.cutter fuel text noSymbol m.al m.enc).bind fun q =>
    (process order ⟨q.2.1, X.nets, X.weightOf, m.al.edge ++ q.1 ++ m.al.edge, maxWeight, locate, []⟩ X.depth X.first s).bind fun r =>
      .ok (r, ⟨q.2.1, q.2.2⟩)

/-- `PmatchContainer::match` (libhfst/src/implementations/optimized-lookup/pmatch.cc:1342-1357). -/
def matchText (order : List Location → List Location) (X : Container) (maxWeight : Option Int) (fuel : Nat) (m : Memory)
    (text : Bytes) (s : State) : Outcome (Bytes × Memory) :=
  (processText order X false maxWeight fuel m text s).bind fun r =>
    (stringLoop r.2.al X r.1.1 [] [] false).bind fun out => .ok (out, r.2)

/-- `PmatchContainer::locate` (libhfst/src/implementations/optimized-lookup/pmatch.cc:1359-1378). -/
def locateText (order : List Location → List Location) (X : Container) (maxWeight : Option Int) (fuel : Nat) (m : Memory)
    (text : Bytes) (s : State) : Outcome (List (List Location) × Memory) :=
  (processText order X true maxWeight fuel m text s).bind fun r => .ok (r.1.2, r.2)

/-- One call of `PmatchContainer::locate` after the other (libhfst/src/implementations/optimized-lookup/pmatch.cc:1359-1378); each finds the
members that matching changes in some state. -/
def locateTexts (order : List Location → List Location) (X : Container) (maxWeight : Option Int) (fuel : Nat) :
    List (Bytes × State) → Memory → Outcome (List (List (List Location)) × Memory)
  | [], m => .ok ([], m)
  | t :: texts, m => (locateText order X maxWeight fuel m t.1 t.2).bind fun q =>
      (locateTexts order X maxWeight fuel texts q.2).bind fun q' => .ok (q.1 :: q'.1, q'.2)

end Hfst.Pmatch
