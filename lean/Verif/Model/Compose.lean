import Verif.Model.Graph
import Verif.Model.Flags

/-!
# Compose-intersect: a lexicon composed with the intersection of rules

Model of libhfst/src/implementations/compose_intersect/ (`ComposeIntersectFst`, `ComposeIntersectRule`,
`ComposeIntersectRulePair`, `ComposeIntersectLexicon`, `SpaceSavingSet`).

* The labels are symbols; the code uses their numbers, given by `num`.
* An infinite final weight is `none`.
* A `std::map` with symbols as keys is an association list; the code goes through it in the order of the numbers, which only
  decides how the states of the result are numbered and in which order the transitions are added.
* The loop over the agenda takes the number of rounds still allowed as an argument.
-/
namespace Hfst.Compose
open Hfst.Basic

/-- `CompareTransitions` (libhfst/src/implementations/compose_intersect/ComposeIntersectFst.cc:55-73). -/
def arcLess (num : Sym → Nat) (a b : Arc) : Bool :=
  if num a.inp = num b.inp then
    if num a.out = num b.out then
      if a.weight = b.weight then decide (a.target < b.target) else decide (a.weight < b.weight)
    else decide (num a.out < num b.out)
  else decide (num a.inp < num b.inp)

/-- `SpaceSavingSet::insert` (libhfst/src/implementations/compose_intersect/ComposeIntersectUtilities.h:54-60, 106-118). -/
def insertArc (num : Sym → Nat) (x : Arc) : List Arc → List Arc
  | [] => [x]
  | y :: l =>
    if arcLess num y x then y :: insertArc num x l
    else if x = y then y :: l else x :: y :: l

/-! ## One transducer -/

/-- The members of `ComposeIntersectFst` (libhfst/src/implementations/compose_intersect/ComposeIntersectFst.h:68-72):
`symbol_set`, `transition_map_vector`, `finality_vector` and `identity_transition_vector`. -/
structure Fst where
  symbols : List Sym
  maps : List (List (Sym × List Arc))
  finals : List (Option Int)
  identities : List Arc

/-- One transition entered in the map of its state
(libhfst/src/implementations/compose_intersect/ComposeIntersectFst.cc:109-124). -/
def addToMap (num : Sym → Nat) (inputKeys : Bool) (m : List (Sym × List Arc)) (a : Arc) : List (Sym × List Arc) :=
  if a.inp = identity then m
  else
    let k := if inputKeys then a.inp else a.out
    mapPut m k (insertArc num a ((mapGet m k).getD []))

/-- What is added to `identity_transition_vector` for a state
(libhfst/src/implementations/compose_intersect/ComposeIntersectFst.cc:104-114, 126-134). -/
def identitiesOf (l : List Arc) : List Arc :=
  let found := l.filter fun a => decide (a.inp = identity)
  if found = [] then [⟨0, epsilon, epsilon, 0⟩] else found

/-- The constructor (libhfst/src/implementations/compose_intersect/ComposeIntersectFst.cc:79-136). -/
def Fst.build (num : Sym → Nat) (inputKeys : Bool) (g : Graph) : Fst :=
  let g := g.sortArcs num
  { symbols := g.alphabet
    maps := g.states.map fun l => l.foldl (addToMap num inputKeys) []
    finals := (List.range g.states.length).map g.final
    identities := g.states.flatMap identitiesOf }

/-- `get_final_weight` (libhfst/src/implementations/compose_intersect/ComposeIntersectFst.cc:141-146). -/
def Fst.getFinal (f : Fst) (s : Nat) : Outcome (Option Int) :=
  if s ≥ f.maps.length then .throws
  else match f.finals[s]? with
    | some w => .ok w
    | none => .throws

/-- `transition_map_vector.at(s)[symbol] = ...`
(libhfst/src/implementations/compose_intersect/ComposeIntersectFst.cc:161, 166-169). -/
def Fst.put (f : Fst) (s : Nat) (x : Sym) (set : List Arc) : Fst :=
  { f with maps := f.maps.modify s fun m => mapPut m x set }

/-- `get_transitions` (libhfst/src/implementations/compose_intersect/ComposeIntersectFst.cc:151-195): the set and the object
afterwards. -/
def Fst.get (f : Fst) (s : Nat) (x : Sym) : Outcome (List Arc × Fst) :=
  match f.maps[s]? with
  | none => .throws
  | some m =>
    match mapGet m x with
    | some set => .ok (set, f)
    | none =>
      if x ∈ f.symbols then .ok ([], f.put s x [])
      else match f.identities[s]? with
        | none => .throws
        | some a =>
          if a.inp ≠ identity then .ok ([], f.put s x [])
          else .ok ([⟨a.target, x, x, a.weight⟩], f.put s x [⟨a.target, x, x, a.weight⟩])

/-! ## Rules and pairs of rules -/

/-- The members of `ComposeIntersectRulePair` (libhfst/src/implementations/compose_intersect/ComposeIntersectRulePair.h:50-53):
`state_pair_vector`, `pair_state_map` and `state_transition_vector`. -/
structure PairTable where
  pairs : List (Nat × Nat)
  numbers : List ((Nat × Nat) × Nat)
  sets : List (List (Sym × List Arc))

/-- A `ComposeIntersectRule` with its `symbols`, or a `ComposeIntersectRulePair`
(libhfst/src/implementations/compose_intersect/ComposeIntersectRule.h:19-27, ComposeIntersectRulePair.h:24-65). -/
inductive Rules
  | rule (f : Fst) (symbols : List Sym)
  | pair (a b : Rules) (t : PairTable)

/-- The constructor of a rule (libhfst/src/implementations/compose_intersect/ComposeIntersectRule.cc:17-19). -/
def Rules.ofGraph (num : Sym → Nat) (g : Graph) : Rules := .rule (Fst.build num true g) g.alphabet

/-- The constructor of a pair (libhfst/src/implementations/compose_intersect/ComposeIntersectRulePair.cc:19-33). -/
def Rules.both (a b : Rules) : Rules := .pair a b ⟨[(0, 0)], [((0, 0), 0)], [[]]⟩

/-- `known_symbol` (libhfst/src/implementations/compose_intersect/ComposeIntersectRule.cc:20-26).  A pair is constructed with
the constructor without arguments, so that its `symbols` are empty. -/
def Rules.known : Rules → Sym → Bool
  | .rule _ symbols, x => decide (x ∈ symbols)
  | .pair .., _ => false

/-- `ComposeIntersectRulePair::get_state`
(libhfst/src/implementations/compose_intersect/ComposeIntersectRulePair.cc:64-74). -/
def PairTable.state (t : PairTable) (p : Nat × Nat) : PairTable × Nat :=
  match mapGet t.numbers p with
  | some n => (t, n)
  | none => (⟨t.pairs ++ [p], mapPut t.numbers p t.pairs.length, t.sets ++ [[]]⟩, t.pairs.length)

/-- What is done for two transitions with equal output
(libhfst/src/implementations/compose_intersect/ComposeIntersectRulePair.cc:76-82, 112-115). -/
def addMatch (num : Sym → Nat) (x : Sym) (acc : List Arc × PairTable) (p : Arc × Arc) : List Arc × PairTable :=
  let r := acc.2.state (p.1.target, p.2.target)
  (insertArc num ⟨r.2, x, p.1.out, p.1.weight + p.2.weight⟩ acc.1, r.1)

/-- The loop for one transition `a` of the first rule, until it is passed
(libhfst/src/implementations/compose_intersect/ComposeIntersectRulePair.cc:108-121); `next` continues with the next one. -/
def mergeInner (num : Sym → Nat) (x : Sym) (a : Arc) (next : List Arc → List Arc × PairTable → List Arc × PairTable) :
    List Arc → List Arc × PairTable → List Arc × PairTable
  | [], acc => acc
  | b :: bs, acc =>
    if num a.out = num b.out then next bs (addMatch num x acc (a, b))
    else if num a.out < num b.out then next (b :: bs) acc
    else mergeInner num x a next bs acc

/-- The loop over the transitions of both rules
(libhfst/src/implementations/compose_intersect/ComposeIntersectRulePair.cc:108-121). -/
def mergeLoop (num : Sym → Nat) (x : Sym) : List Arc → List Arc → List Arc × PairTable → List Arc × PairTable
  | [], _, acc => acc
  | a :: as, bs, acc => mergeInner num x a (mergeLoop num x as) bs acc

/-- `get_transitions` of a rule or a pair
(libhfst/src/implementations/compose_intersect/ComposeIntersectFst.cc:151-174, ComposeIntersectRulePair.cc:41-62, 93-123). -/
def Rules.get (num : Sym → Nat) : Rules → Nat → Sym → Outcome (List Arc × Rules)
  | .rule f symbols, s, x => (f.get s x).bind fun r => .ok (r.1, .rule r.2 symbols)
  | .pair a b t, s, x =>
    match t.pairs[s]?, t.sets[s]? with
    | some p, some m =>
      match mapGet m x with
      | some set => .ok (set, .pair a b t)
      | none =>
        (a.get num p.1 x).bind fun ra => (b.get num p.2 x).bind fun rb =>
          let acc := mergeLoop num x ra.1 rb.1 ([], t)
          .ok (acc.1, .pair ra.2 rb.2 { acc.2 with sets := acc.2.sets.modify s fun m => mapPut m x acc.1 })
    | _, _ => .throws

/-- The sum of two final weights, which may be infinite
(libhfst/src/implementations/compose_intersect/ComposeIntersectRulePair.cc:89-90). -/
def addFinal : Option Int → Option Int → Option Int
  | some w, some v => some (w + v)
  | _, _ => none

/-- `get_final_weight` of a rule or a pair
(libhfst/src/implementations/compose_intersect/ComposeIntersectFst.cc:141-146, ComposeIntersectRulePair.cc:84-91). -/
def Rules.getFinal : Rules → Nat → Outcome (Option Int)
  | .rule f _, s => f.getFinal s
  | .pair a b t, s =>
    match t.pairs[s]? with
    | none => .throws
    | some p => (a.getFinal p.1).bind fun w => (b.getFinal p.2).bind fun v => .ok (addFinal w v)

/-! ## The lexicon -/

/-- The members of `ComposeIntersectLexicon` that change
(libhfst/src/implementations/compose_intersect/ComposeIntersectLexicon.h:42-46): `state_pair_map`, `pair_vector`, `agenda` and
`result`.  `lexicon_non_epsilon_states` contains every state (ComposeIntersectLexicon.cc:57) and is left out. -/
structure CState where
  numbers : List ((Nat × Nat) × Nat)
  pairs : List (Nat × Nat)
  agenda : List Nat
  result : Graph

/-- `map_state_and_add_to_agenda` (libhfst/src/implementations/compose_intersect/ComposeIntersectLexicon.cc:41-60); the failed
assertion is an exception. -/
def CState.mapState (st : CState) (p : Nat × Nat) : Outcome (Nat × CState) :=
  let r := if p = (0, 0) then (st.result, 0) else st.result.addState
  if r.2 ≠ st.numbers.length then .throws
  else .ok (r.2, ⟨mapPut st.numbers p r.2, st.pairs ++ [p], st.agenda ++ [r.2], r.1⟩)

/-- `get_state` (libhfst/src/implementations/compose_intersect/ComposeIntersectLexicon.cc:77-86). -/
def CState.state (st : CState) (p : Nat × Nat) : Outcome (Nat × CState) :=
  match mapGet st.numbers p with
  | some n => .ok (n, st)
  | none => st.mapState p

/-- `add_transition(origin, input, output, weight, get_state(p))`
(libhfst/src/implementations/compose_intersect/ComposeIntersectLexicon.cc:173-175, 205-207, 212-221). -/
def CState.add (st : CState) (origin : Nat) (inp out : Sym) (weight : Int) (p : Nat × Nat) : Outcome CState :=
  (st.state p).bind fun r => .ok { r.2 with result := r.2.result.addTransition origin ⟨r.1, inp, out, weight⟩ }

/-- The loops that add transitions: each entry is input, output, weight and the pair of states to go to
(libhfst/src/implementations/compose_intersect/ComposeIntersectLexicon.cc:169-176, 182-189, 199-209). -/
def CState.addAll (origin : Nat) : List (Sym × Sym × Int × (Nat × Nat)) → CState → Outcome CState
  | [], st => .ok st
  | e :: es, st => (st.add origin e.1 e.2.1 e.2.2.1 e.2.2.2).bind fun st => addAll origin es st

/-- `lexicon_skip_symbol_compose` (libhfst/src/implementations/compose_intersect/ComposeIntersectLexicon.cc:166-177): what it
adds. -/
def lexiconSkip (set : List Arc) (ruleState : Nat) : List (Sym × Sym × Int × (Nat × Nat)) :=
  set.map fun a => (a.inp, a.out, a.weight, (a.target, ruleState))

/-- `rule_skip_symbol_compose` (libhfst/src/implementations/compose_intersect/ComposeIntersectLexicon.cc:179-191): what it
adds. -/
def ruleSkip (set : List Arc) (lexState : Nat) : List (Sym × Sym × Int × (Nat × Nat)) :=
  set.map fun a => (a.inp, a.out, a.weight, (lexState, a.target))

/-- `compose` (libhfst/src/implementations/compose_intersect/ComposeIntersectLexicon.cc:193-210): what it adds. -/
def composeSets (lexSet ruleSet : List Arc) : List (Sym × Sym × Int × (Nat × Nat)) :=
  lexSet.flatMap fun a => ruleSet.map fun b => (a.inp, b.out, a.weight + b.weight, (a.target, b.target))

/-- The loop over the map of a lexicon state
(libhfst/src/implementations/compose_intersect/ComposeIntersectLexicon.cc:132-156); `q` is the rule state. -/
def lexiconLoop (num : Sym → Nat) (q origin : Nat) :
    List (Sym × List Arc) → Rules → CState → Outcome (Rules × CState)
  | [], r, st => .ok (r, st)
  | e :: es, r, st =>
    if e.1 = epsilon ∨ (Flags.isDiacritic e.1 = true ∧ r.known e.1 = false) then
      (st.addAll origin (lexiconSkip e.2 q)).bind fun st => lexiconLoop num q origin es r st
    else
      (r.get num q e.1).bind fun g => (st.addAll origin (composeSets e.2 g.1)).bind fun st => lexiconLoop num q origin es g.2 st

/-- `compute_state` (libhfst/src/implementations/compose_intersect/ComposeIntersectLexicon.cc:116-163). -/
def computeState (num : Sym → Nat) (lex : Fst) (s : Nat) (r : Rules) (st : CState) : Outcome (Rules × CState) :=
  match st.pairs[s]? with
  | none => .throws
  | some p =>
    match lex.maps[p.1]? with
    | none => .undefined
    | some m =>
      (lexiconLoop num p.2 s m r st).bind fun l =>
        (l.1.get num p.2 epsilon).bind fun g => (l.2.addAll s (ruleSkip g.1 p.1)).bind fun st => .ok (g.2, st)

/-- The loop of `compute_composition_result`
(libhfst/src/implementations/compose_intersect/ComposeIntersectLexicon.cc:104-110). -/
def agendaLoop (num : Sym → Nat) (lex : Fst) : Nat → Rules → CState → Outcome (Rules × CState)
  | 0, _, _ => .undefined
  | n + 1, r, st =>
    match st.agenda with
    | [] => .ok (r, st)
    | s :: rest => (computeState num lex s r { st with agenda := rest }).bind fun x => agendaLoop num lex n x.1 x.2

/-- `set_final_state_weights` (libhfst/src/implementations/compose_intersect/ComposeIntersectLexicon.cc:88-99); `s` is the number
of the first state in the list. -/
def setFinals (lex : Fst) (r : Rules) : List (Nat × Nat) → Nat → Graph → Outcome Graph
  | [], _, g => .ok g
  | p :: ps, s, g =>
    (lex.getFinal p.1).bind fun w => (r.getFinal p.2).bind fun v =>
      match w, v with
      | some w, some v => setFinals lex r ps (s + 1) (g.setFinal s (w + v))
      | _, _ => setFinals lex r ps (s + 1) g

/-- `compose_with_rules` (libhfst/src/implementations/compose_intersect/ComposeIntersectLexicon.cc:65-75, 101-114), for the
lexicon `g` (ComposeIntersectLexicon.cc:17-20). -/
def composeWithRules (fuel : Nat) (num : Sym → Nat) (g : Graph) (r : Rules) : Outcome Graph :=
  let lex := Fst.build num false g
  ((CState.mk [] [] [] Graph.init).mapState (0, 0)).bind fun st =>
    (agendaLoop num lex fuel r st.2).bind fun x => setFinals lex x.1 x.2.pairs 0 x.2.result

end Hfst.Compose
