import Verif.Model.Flags

/-!
# `HfstBasicTransducer`: states, transitions, alphabet, edits

Model of libhfst/src/implementations/HfstBasicTransducer.cc (constructors, alphabet, states and transitions,
substitution, free insertion, trie disjunction, completion, flag purging).

Simplifications common to this file:
* Transitions carry symbols, not symbol numbers.  The code stores numbers given by one global table; that
  number and symbol determine each other is property C31.
* State numbers are natural numbers; the code uses `unsigned int` (a graph with 2^32 states is out of reach of
  the model).
* Weights are integers (every finite `float` is an integer multiple of the smallest positive one; rounding is not
  modelled).
* `std::set<std::string>` is a list used as a set; `std::map<HfstState, float>` is an association list.
-/
namespace Hfst.Basic
open Hfst.StdString

/-- `HfstSymbol` (libhfst/src/implementations/HfstBasicTransducer.h:144, a `std::string`). -/
abbrev Sym := Str

/-- `HfstTropicalTransducerTransitionData::get_epsilon`
(libhfst/src/implementations/HfstTropicalTransducerTransitionData.cc:26-29). -/
def epsilon : Sym := "@_EPSILON_SYMBOL_@".toList

/-- `HfstTropicalTransducerTransitionData::get_unknown`
(libhfst/src/implementations/HfstTropicalTransducerTransitionData.cc:31-34). -/
def unknown : Sym := "@_UNKNOWN_SYMBOL_@".toList

/-- `HfstTropicalTransducerTransitionData::get_identity`
(libhfst/src/implementations/HfstTropicalTransducerTransitionData.cc:36-39). -/
def identity : Sym := "@_IDENTITY_SYMBOL_@".toList

/-- `HfstBasicTransition` (libhfst/src/implementations/HfstBasicTransition.h:34-38, .cc:21-35). -/
structure Arc where
  target : Nat
  inp : Sym
  out : Sym
  weight : Int
  deriving DecidableEq, Repr

/-- The symbol pair of a transition (libhfst/src/implementations/HfstBasicTransition.cc:64-76). -/
def Arc.label (a : Arc) : Sym × Sym := (a.inp, a.out)

/-- What a public call can end in: a value, an exception, or undefined behaviour (C++ standard; exceptions as in
libhfst/src/HfstExceptionDefs.h). -/
inductive Outcome (α : Type) where
  | ok (a : α)
  | throws
  | undefined
  deriving DecidableEq, Repr

/-- One call after another: an exception or undefined behaviour ends the sequence (C++ standard). -/
def Outcome.bind {α β : Type} (x : Outcome α) (f : α → Outcome β) : Outcome β :=
  match x with
  | .ok a => f a
  | .throws => .throws
  | .undefined => .undefined

/-- `m[k] = v` on a `std::map` (used in libhfst/src/implementations/HfstBasicTransducer.cc:549). -/
def mapPut {α β : Type} [DecidableEq α] (m : List (α × β)) (k : α) (v : β) : List (α × β) :=
  (k, v) :: m.filter (fun e => e.1 ≠ k)

/-- `m.erase(k)` on a `std::map` (used in libhfst/src/implementations/HfstBasicTransducer.cc:555). -/
def mapErase {α β : Type} [DecidableEq α] (m : List (α × β)) (k : α) : List (α × β) :=
  m.filter (fun e => e.1 ≠ k)

/-- `m.find(k)` on a `std::map` (used in libhfst/src/implementations/HfstBasicTransducer.cc:525). -/
def mapGet {α β : Type} [DecidableEq α] (m : List (α × β)) (k : α) : Option β :=
  (m.find? (fun e => e.1 = k)).map (·.2)

/-- `s.insert(x)` on a `std::set` (used in libhfst/src/implementations/HfstBasicTransducer.cc:203). -/
def setInsert {α : Type} [DecidableEq α] (s : List α) (x : α) : List α := if x ∈ s then s else x :: s

/-- `s.erase(x)` on a `std::set` (used in libhfst/src/implementations/HfstBasicTransducer.cc:213). -/
def setErase {α : Type} [DecidableEq α] (s : List α) (x : α) : List α := s.filter (· ≠ x)

/-- Data members of `HfstBasicTransducer` (libhfst/src/implementations/HfstBasicTransducer.h:156-173): state vector,
final weight map and alphabet.  The name is left out. -/
structure Graph where
  states : List (List Arc)
  finals : List (Nat × Int)
  alphabet : List Sym
  deriving DecidableEq, Repr

namespace Graph

/-- `HfstBasicTransducer()` with `initialize_alphabet`
(libhfst/src/implementations/HfstBasicTransducer.cc:52-58, 120-127). -/
def init : Graph := { states := [[]], finals := [], alphabet := [epsilon, unknown, identity] }

/-- `operator[](s)` (libhfst/src/implementations/HfstBasicTransducer.cc:610-618), with the empty list for a state
that does not exist; the code throws then. -/
def arcs (g : Graph) (s : Nat) : List Arc := (g.states[s]?).getD []

/-- `operator[]` / `transitions` as called by users (libhfst/src/implementations/HfstBasicTransducer.cc:610-643). -/
def transitions (g : Graph) (s : Nat) : Outcome (List Arc) :=
  match g.states[s]? with
  | none => .throws
  | some l => .ok l

/-- `add_state()` (libhfst/src/implementations/HfstBasicTransducer.cc:414-420): the new graph and the number. -/
def addState (g : Graph) : Graph × Nat := ({ g with states := g.states ++ [[]] }, g.states.length)

/-- `add_state(s)` (libhfst/src/implementations/HfstBasicTransducer.cc:428-437). -/
def addStateN (g : Graph) (s : Nat) : Graph :=
  { g with states := g.states ++ List.replicate (s + 1 - g.states.length) [] }

/-- `get_max_state` (libhfst/src/implementations/HfstBasicTransducer.cc:440-444). -/
def maxState (g : Graph) : Nat := g.states.length - 1

/-- `add_symbol_to_alphabet` (libhfst/src/implementations/HfstBasicTransducer.cc:200-204). -/
def addSymbol (g : Graph) (x : Sym) : Graph := { g with alphabet := setInsert g.alphabet x }

/-- `add_symbols_to_alphabet(HfstSymbolSet)` (libhfst/src/implementations/HfstBasicTransducer.cc:227-234). -/
def addSymbols (g : Graph) (xs : List Sym) : Graph := { g with alphabet := xs.foldl setInsert g.alphabet }

/-- `add_symbols_to_alphabet(HfstSymbolPairSet)` (libhfst/src/implementations/HfstBasicTransducer.cc:236-244). -/
def addSymbolPairs (g : Graph) (ps : List (Sym × Sym)) : Graph :=
  { g with alphabet := ps.foldl (fun al p => setInsert (setInsert al p.1) p.2) g.alphabet }

/-- `remove_symbol_from_alphabet` (libhfst/src/implementations/HfstBasicTransducer.cc:210-214). -/
def removeSymbol (g : Graph) (x : Sym) : Graph := { g with alphabet := setErase g.alphabet x }

/-- `remove_symbols_from_alphabet` (libhfst/src/implementations/HfstBasicTransducer.cc:216-223). -/
def removeSymbols (g : Graph) (xs : List Sym) : Graph := { g with alphabet := xs.foldl setErase g.alphabet }

/-- `add_transition` (libhfst/src/implementations/HfstBasicTransducer.cc:449-466). -/
def addTransition (g : Graph) (s : Nat) (a : Arc) (addSyms : Bool := true) : Graph :=
  let g1 := (g.addStateN s).addStateN a.target
  let g2 := if addSyms then (g1.addSymbol a.inp).addSymbol a.out else g1
  { g2 with states := g2.states.modify s (· ++ [a]) }

/-- `symbols_used` (libhfst/src/implementations/HfstBasicTransducer.cc:280-295). -/
def symbolsUsed (g : Graph) : List Sym := g.states.flatMap fun l => l.flatMap fun a => [a.inp, a.out]

/-- `remove_transition` (libhfst/src/implementations/HfstBasicTransducer.cc:474-518).  The iterators of the
matching transitions are collected and erased from the last to the first. -/
def removeTransition (g : Graph) (s : Nat) (a : Arc) (removeSyms : Bool := false) : Graph :=
  if !(g.states.length > s) then g
  else
    let g1 : Graph := { g with
      states := g.states.modify s fun l =>
        l.filter fun b => !(b.inp = a.inp && b.out = a.out && b.target = a.target) }
    if removeSyms then
      let used := g1.symbolsUsed
      let g2 := if a.inp ∈ used then g1 else g1.removeSymbol a.inp
      if a.out ∈ used then g2 else g2.removeSymbol a.out
    else g1

/-- `final_weight_map.find` as used by `is_final_state` (libhfst/src/implementations/HfstBasicTransducer.cc:522-526). -/
def final (g : Graph) (s : Nat) : Option Int := mapGet g.finals s

/-- `get_final_weight` (libhfst/src/implementations/HfstBasicTransducer.cc:529-537). -/
def getFinalWeight (g : Graph) (s : Nat) : Outcome Int :=
  if s > g.maxState then .throws
  else match g.final s with
    | some w => .ok w
    | none => .throws

/-- `set_final_weight` (libhfst/src/implementations/HfstBasicTransducer.cc:543-550). -/
def setFinal (g : Graph) (s : Nat) (w : Int) : Graph :=
  let g1 := g.addStateN s
  { g1 with finals := mapPut g1.finals s w }

/-- `remove_final_weight` (libhfst/src/implementations/HfstBasicTransducer.cc:552-556). -/
def removeFinal (g : Graph) (s : Nat) : Graph := { g with finals := mapErase g.finals s }

/-- `HfstBasicTransition::operator<` negated and turned (libhfst/src/implementations/HfstBasicTransition.cc:46-50,
libhfst/src/implementations/HfstTropicalTransducerTransitionData.cc:219-230).  `num` is the global symbol
numbering. -/
def arcLe (num : Sym → Nat) (a b : Arc) : Bool :=
  if a.target = b.target then
    if num a.inp = num b.inp then
      if num a.out = num b.out then a.weight ≤ b.weight else num a.out ≤ num b.out
    else num a.inp ≤ num b.inp
  else a.target ≤ b.target

/-- `sort_arcs` (libhfst/src/implementations/HfstBasicTransducer.cc:560-569).  `std::sort` is modelled by merge
sort: the order is total up to equality of transitions, so there is only one sorted arrangement. -/
def sortArcs (num : Sym → Nat) (g : Graph) : Graph :=
  { g with states := g.states.map fun l => l.mergeSort (arcLe num) }

/-- `prune_alphabet` (libhfst/src/implementations/HfstBasicTransducer.cc:305-344). -/
def pruneAlphabet (g : Graph) (force : Bool := true) : Graph :=
  let found := g.symbolsUsed
  if !force && (unknown ∈ found || identity ∈ found) then g
  else
    let found' := [epsilon, unknown, identity] ++ found
    let notFound := g.alphabet.filter fun x => x ∉ found'
    { g with alphabet := notFound.foldl setErase g.alphabet }

/-- `prune_alphabet_after_substitution` (libhfst/src/implementations/HfstBasicTransducer.cc:248-278). -/
def pruneAfterSubstitution (g : Graph) (symbols : List Sym) : Graph :=
  if symbols.length = 0 then g
  else
    let found := g.symbolsUsed
    { g with alphabet := symbols.foldl (fun al x => if x ∈ found then al else setErase al x) g.alphabet }

/-- `swap_state_numbers` (libhfst/src/implementations/HfstBasicTransducer.cc:649-710).  The iterators `s1_it` and
`s2_it` are taken before the assignments; they denote map nodes, so after `final_weight_map[s1] = ...` the values
seen through them have changed.  Indexing outside the state vector is undefined, and so is `s1 = s2` for a final
state (the node is erased and then read). -/
def swapStateNumbers (g : Graph) (s1 s2 : Nat) : Outcome Graph :=
  match g.states[s1]?, g.states[s2]? with
  | some l1, some l2 =>
    let retarget (a : Arc) : Arc :=
      let t1 := if a.target = s1 then s2 else a.target
      let t2 := if a.target = s2 then s1 else t1
      { a with target := t2 }
    let states := ((g.states.set s1 l2).set s2 l1).map fun l => l.map retarget
    let it1 := mapGet g.finals s1
    let it2 := mapGet g.finals s2
    if s1 = s2 ∧ it1.isSome then .undefined else
    -- first `if`: both final
    let fm1 := match it1, it2 with
      | some w1, some w2 => mapPut (mapPut g.finals s1 w2) s2 w1
      | _, _ => g.finals
    -- second `if`: reads the node of `s1` as it is now
    let fm2 := if it1.isSome then
        let w := (mapGet fm1 s1).getD 0
        mapPut (mapErase fm1 s1) s2 w
      else fm1
    -- third `if`: reads the node of `s2` as it is now
    let fm3 := if it2.isSome then
        let w := (mapGet fm2 s2).getD 0
        mapPut (mapErase fm2 s2) s1 w
      else fm2
    .ok { g with states := states, finals := fm3 }
  | _, _ => .undefined

/-! ## Substitution -/

/-- `is_valid_symbol` (libhfst/src/implementations/HfstTropicalTransducerTransitionData.cc:208-212). -/
def isValidSymbol (x : Sym) : Bool := x ≠ []

/-- The transition made by one step of `substitute_(old,new,input_side,output_side)`
(libhfst/src/implementations/HfstBasicTransducer.cc:1919-1951). -/
def substArc (old new : Sym) (inSide outSide : Bool) (a : Arc) : Arc :=
  { a with
    inp := if inSide && a.inp = old then new else a.inp
    out := if outSide && a.out = old then new else a.out }

/-- `substitute(old_symbol, new_symbol, input_side, output_side)`
(libhfst/src/implementations/HfstBasicTransducer.cc:2314-2352, 1906-1959). -/
def substitute (g : Graph) (old new : Sym) (inSide outSide : Bool) : Outcome Graph :=
  if !isValidSymbol old || !isValidSymbol new then .throws
  else if old = new then .ok g
  else if old ∉ g.alphabet then .ok g
  else
    let al1 := if inSide && outSide && (old ≠ epsilon && old ≠ unknown && old ≠ identity)
      then setErase g.alphabet old else g.alphabet
    let al2 := setInsert al1 new
    .ok { g with states := g.states.map fun l => l.map (substArc old new inSide outSide), alphabet := al2 }

/-- One step of `substitute_(substitutions, no_substitution)`
(libhfst/src/implementations/HfstBasicTransducer.cc:1978-2010). -/
def substArcMap (m : List (Sym × Sym)) (a : Arc) : Arc :=
  { a with inp := (mapGet m a.inp).getD a.inp, out := (mapGet m a.out).getD a.out }

/-- The symbols a transition adds to the alphabet in `substitute_(substitutions, no_substitution)`
(libhfst/src/implementations/HfstBasicTransducer.cc:1986-2003). -/
def substMapAdded (m : List (Sym × Sym)) (a : Arc) : List Sym :=
  (mapGet m a.inp).toList ++ (mapGet m a.out).toList

/-- `substitute(HfstSymbolSubstitutions)` (libhfst/src/implementations/HfstBasicTransducer.cc:2363-2394,
1966-2016).  An empty symbol makes `get_number` fail its assertion (reported as `throws`). -/
def substituteMap (g : Graph) (m : List (Sym × Sym)) : Outcome Graph :=
  if m.any (fun e => !isValidSymbol e.1 || !isValidSymbol e.2) then .throws
  else .ok { g with
    states := g.states.map fun l => l.map (substArcMap m)
    alphabet := (g.states.flatMap fun l => l.flatMap (substMapAdded m)).foldl setInsert g.alphabet }

/-- One step of `substitute_(HfstNumberPairSubstitutions)`
(libhfst/src/implementations/HfstBasicTransducer.cc:2030-2054). -/
def substArcPairMap (m : List ((Sym × Sym) × (Sym × Sym))) (a : Arc) : Arc :=
  match mapGet m a.label with
  | some p => { a with inp := p.1, out := p.2 }
  | none => a

/-- `substitute(HfstSymbolPairSubstitutions)` (libhfst/src/implementations/HfstBasicTransducer.cc:2409-2429,
2020-2061). -/
def substitutePairMap (g : Graph) (m : List ((Sym × Sym) × (Sym × Sym))) : Outcome Graph :=
  if m.any (fun e => !isValidSymbol e.1.1 || !isValidSymbol e.1.2 || !isValidSymbol e.2.1 || !isValidSymbol e.2.2)
  then .throws
  else .ok { g with
    states := g.states.map fun l => l.map (substArcPairMap m)
    alphabet := (g.states.flatMap fun l => l.flatMap fun a =>
        match mapGet m a.label with
        | some p => [p.1, p.2]
        | none => []).foldl setInsert g.alphabet }

/-- The inner loop of `remove_transitions` (libhfst/src/implementations/HfstBasicTransducer.cc:2079-2101): after
`erase(begin + i)` the index is still increased, so the transition that moved into position `i` is not looked
at. -/
def removeLoop (p : Sym × Sym) : List Arc → List Arc
  | [] => []
  | [a] => if a.label = p then [] else [a]
  | a :: b :: rest => if a.label = p then b :: removeLoop p rest else a :: removeLoop p (b :: rest)

/-- The transitions that the inner loop of `remove_transitions` looks at and keeps
(libhfst/src/implementations/HfstBasicTransducer.cc:2091-2101). -/
def removeSeen (p : Sym × Sym) : List Arc → List Arc
  | [] => []
  | [a] => if a.label = p then [] else [a]
  | a :: b :: rest => if a.label = p then removeSeen p rest else a :: removeSeen p (b :: rest)

/-- `remove_transitions` (libhfst/src/implementations/HfstBasicTransducer.cc:2065-2114). -/
def removeTransitions (g : Graph) (p : Sym × Sym) : Graph :=
  let seen := g.states.flatMap (removeSeen p)
  let inUsed := seen.any fun a => a.inp = p.1 || a.out = p.1
  let outUsed := seen.any fun a => a.inp = p.2 || a.out = p.2
  let al1 := if inUsed then g.alphabet else setErase g.alphabet p.1
  let al2 := if outUsed then al1 else setErase al1 p.2
  { g with states := g.states.map (removeLoop p), alphabet := al2 }

/-- One state in `substitute_(old_sp, new_sps)` (libhfst/src/implementations/HfstBasicTransducer.cc:2133-2186): a
matching transition is overwritten by the first new pair, and one transition for every new pair (again including
the first) is appended. -/
def substPairSetArcs (old : Sym × Sym) (first : Sym × Sym) (new : List (Sym × Sym)) (l : List Arc) : List Arc :=
  (l.map fun a => if a.label = old then { a with inp := first.1, out := first.2 } else a) ++
  l.flatMap fun a => if a.label = old then new.map fun p => { a with inp := p.1, out := p.2 } else []

/-- `substitute(sp, sps)` (libhfst/src/implementations/HfstBasicTransducer.cc:2433-2458, 2117-2214);
`substitute(old_pair, new_pair)` (2462-2483) is the case of a one-element set. -/
def substitutePairSet (g : Graph) (old : Sym × Sym) (new : List (Sym × Sym)) : Outcome Graph :=
  if !isValidSymbol old.1 || !isValidSymbol old.2 then .throws
  else if new.any (fun p => !isValidSymbol p.1 || !isValidSymbol p.2) then .throws
  else match new with
    | [] => .ok (g.removeTransitions old)
    | first :: rest =>
      let performed := g.states.any fun l => l.any fun a => a.label = old
      let g1 : Graph := { g with states := g.states.map (substPairSetArcs old first (first :: rest)) }
      let g2 := if performed then g1.addSymbolPairs (first :: rest) else g1
      .ok (g2.pruneAfterSubstitution (setInsert [old.1] old.2))

/-- One state in `substitute_(func)` (libhfst/src/implementations/HfstBasicTransducer.cc:2221-2302).  `f` gives for a
pair `none` when the callback returns false, and the set of pairs when it returns true. -/
def substFuncArcs (f : Sym × Sym → Option (List (Sym × Sym))) (l : List Arc) : List Arc :=
  (l.map fun a => match f a.label with
    | some (p :: _) => { a with inp := p.1, out := p.2 }
    | _ => a) ++
  l.flatMap fun a => match f a.label with
    | some ps => ps.map fun p => { a with inp := p.1, out := p.2 }
    | none => []

/-- `substitute(func)` (libhfst/src/implementations/HfstBasicTransducer.cc:2493-2500, 2217-2305).  A callback that
returns true with an empty set makes the code read `begin()` of an empty set: undefined.  Empty symbols throw
(the graph is then left partly changed; the model has no value for it). -/
def substituteFunc (g : Graph) (f : Sym × Sym → Option (List (Sym × Sym))) : Outcome Graph :=
  let all := g.states.flatten
  if all.any (fun a => f a.label = some []) then .undefined
  else if all.any (fun a => match f a.label with
      | some ps => ps.any fun p => !isValidSymbol p.1 || !isValidSymbol p.2
      | none => false) then .throws
  else .ok { g with
    states := g.states.map (substFuncArcs f)
    alphabet := (all.flatMap fun a => match f a.label with
      | some ps => ps.flatMap fun p => [p.1, p.2]
      | none => []).foldl setInsert g.alphabet }

/-- `substitution_data` (libhfst/src/implementations/HfstBasicTransducer.h:684-701) without the graph. -/
structure SubstData where
  origin : Nat
  target : Nat
  weight : Int

/-- Copying the transitions of `h` into `g` with an offset
(libhfst/src/implementations/HfstBasicTransducer.cc:2593-2607, 4121-4136). -/
def copyArcs (g h : Graph) (offset : Nat) : Graph :=
  h.states.zipIdx.foldl (fun g e =>
    e.1.foldl (fun g a => g.addTransition (e.2 + offset) { a with target := a.target + offset }) g) g

/-- The epsilon transitions from the final states of the copy
(libhfst/src/implementations/HfstBasicTransducer.cc:2609-2617, 4138-4145). -/
def copyFinals (g h : Graph) (offset target : Nat) : Graph :=
  h.finals.foldl (fun g e =>
    g.addTransition (e.1 + offset) { target := target, inp := epsilon, out := epsilon, weight := e.2 }) g

/-- `add_substitution` (libhfst/src/implementations/HfstBasicTransducer.cc:2577-2618). -/
def addSubstitution (g : Graph) (sub : SubstData) (h : Graph) : Graph :=
  let (g1, s) := g.addState
  let g2 := g1.addTransition sub.origin { target := s, inp := epsilon, out := epsilon, weight := sub.weight }
  copyFinals (copyArcs g2 h s) h s sub.target

/-- The substitutions scheduled in `substitute(sp, graph)` and in `substitute(SubstMap)`, state by state
(libhfst/src/implementations/HfstBasicTransducer.cc:2520-2562, 2745-2800): matching transitions with their source. -/
def scheduled {β : Type} (g : Graph) (f : Arc → Option β) : List (SubstData × β) :=
  g.states.zipIdx.flatMap fun e => e.1.filterMap fun a =>
    (f a).map fun b => ({ origin := e.2, target := a.target, weight := a.weight }, b)

/-- `substitute(sp, graph)` (libhfst/src/implementations/HfstBasicTransducer.cc:2501-2571).  The iterators of the
matching transitions of a state are erased from the first to the last; every `erase` invalidates the later ones, so
two matches in one state are undefined behaviour. -/
def substituteGraph (g : Graph) (sp : Sym × Sym) (h : Graph) : Outcome Graph :=
  if !(isValidSymbol sp.1 && isValidSymbol sp.2) then .throws
  else if sp.1 ∉ g.alphabet ∧ sp.2 ∉ g.alphabet then .ok g
  else if g.states.any (fun l => (l.filter fun a => a.label = sp).length > 1) then .undefined
  else
    let subs := g.scheduled fun a => if a.label = sp then some () else none
    let g1 : Graph := { g with states := g.states.map fun l => l.filter fun a => a.label ≠ sp }
    .ok (subs.foldl (fun g e => g.addSubstitution e.1 h) g1)

/-- `substitute(SubstMap, false)`, that is without harmonization
(libhfst/src/implementations/HfstBasicTransducer.cc:2712-2830).  Throws on a transition that has a substituted
symbol on one side only (the graph is then left partly changed; no value in the model). -/
def substituteGraphs (g : Graph) (m : List (Sym × Graph)) : Outcome Graph :=
  if m.any (fun e => !isValidSymbol e.1) then .throws
  else if !(m.any fun e => e.1 ∈ g.alphabet) then .ok g
  else if g.states.any (fun l => l.any fun a =>
      ((mapGet m a.inp).isSome || (mapGet m a.out).isSome) && a.inp ≠ a.out) then .throws
  else
    let subs := g.scheduled fun a => mapGet m a.inp
    let performed := (g.states.flatten.filter fun a => (mapGet m a.inp).isSome).map (·.inp)
    let g1 : Graph := { g with
      states := g.states.map fun l => l.filter fun a => (mapGet m a.inp).isNone
      alphabet := g.alphabet.filter fun x =>
        x ∉ performed || x = epsilon || x = unknown || x = identity }
    .ok (subs.foldl (fun g e => g.addSubstitution e.1 e.2) g1)

/-- `insert_transducer` (libhfst/src/implementations/HfstBasicTransducer.cc:4117-4152). -/
def insertTransducer (g : Graph) (s1 s2 : Nat) (h : Graph) : Graph :=
  let (g1, offset) := g.addState
  let g2 := copyFinals (copyArcs g1 h offset) h offset s2
  g2.addTransition s1 { target := offset, inp := epsilon, out := epsilon, weight := 0 }

/-! ## Free insertion -/

/-- `insert_freely(symbol_pairs, weight)` (libhfst/src/implementations/HfstBasicTransducer.cc:3003-3041);
`insert_freely(symbol_pair, weight)` (2970-2999) is the case of one pair. -/
def insertFreely (g : Graph) (ps : List (Sym × Sym)) (w : Int) : Outcome Graph :=
  if ps.any (fun p => !(isValidSymbol p.1 && isValidSymbol p.2)) then .throws
  else
    let g1 := g.addSymbolPairs ps
    .ok { g1 with
      states := g1.states.zipIdx.map fun e =>
        e.1 ++ ps.map fun p => { target := e.2, inp := p.1, out := p.2, weight := w } }

/-- The marker (libhfst/src/implementations/HfstTropicalTransducerTransitionData.cc:214-217). -/
def marker : Sym := "@_MARKER_SYMBOL_@".toList

/-- `insert_freely(graph)` (libhfst/src/implementations/HfstBasicTransducer.cc:3043-3061). -/
def insertFreelyGraph (g h : Graph) : Outcome Graph :=
  match g.insertFreely [(marker, marker)] 0 with
  | .ok g1 =>
    match g1.substituteGraph (marker, marker) h with
    | .ok g2 => .ok (g2.removeSymbol marker)
    | r => r
  | r => r

/-! ## Trie disjunction -/

/-- The search loop in `disjunct(spv, it, s)` (libhfst/src/implementations/HfstBasicTransducer.cc:3119-3133). -/
def findArc (l : List Arc) (p : Sym × Sym) : Option Arc := l.find? fun a => a.inp = p.1 && a.out = p.2

/-- `disjunct(spv, it, s)` (libhfst/src/implementations/HfstBasicTransducer.cc:3105-3148): the new graph and the
last state of the path.  The state vector is indexed without a check; the states passed are always existing ones. -/
def disjunctPath (g : Graph) : List (Sym × Sym) → Nat → Graph × Nat
  | [], s => (g, s)
  | p :: rest, s =>
    match findArc (g.arcs s) p with
    | some a => g.disjunctPath rest a.target
    | none =>
      let (g1, n) := g.addState
      (g1.addTransition s { target := n, inp := p.1, out := p.2, weight := 0 }).disjunctPath rest n

/-- `disjunct(spv, weight)` (libhfst/src/implementations/HfstBasicTransducer.cc:3169-3186).  An empty symbol makes the
constructor of the new transition throw (the graph is then left partly changed). -/
def disjunct (g : Graph) (spv : List (Sym × Sym)) (w : Int) : Outcome Graph :=
  if spv.any (fun p => !(isValidSymbol p.1 && isValidSymbol p.2)) then .throws
  else
    let r := g.disjunctPath spv 0
    match r.1.final r.2 with
    | some old => if old < w then .ok r.1 else .ok (r.1.setFinal r.2 w)
    | none => .ok (r.1.setFinal r.2 w)

/-! ## Completion and flags -/

/-- `is_special_symbol` (libhfst/src/implementations/HfstBasicTransducer.cc:3188-3196). -/
def isSpecialSymbol (x : Sym) : Bool :=
  if x.length < 2 then false else x[0]? = some '@' && x[1]? = some '_'

/-- What `complete` adds to one state (libhfst/src/implementations/HfstBasicTransducer.cc:3204-3229). -/
def completeArcs (alphabet : List Sym) (failure : Nat) (l : List Arc) : List Arc :=
  l ++ (alphabet.filter fun x => x ∉ l.map (·.inp) && !isSpecialSymbol x).map fun x =>
    { target := failure, inp := x, out := x, weight := 0 }

/-- `complete` (libhfst/src/implementations/HfstBasicTransducer.cc:3198-3232).  The new failure state takes part in the
loop.  The symbols added to the alphabet by `add_transition` are in it already. -/
def complete (g : Graph) : Outcome Graph :=
  let (g1, failure) := g.addState
  if g1.states.any (fun l => l.any fun a => a.inp ≠ a.out) then .throws
  else .ok { g1 with states := g1.states.map (completeArcs g1.alphabet failure) }

/-- `get_flags` (libhfst/src/implementations/HfstBasicTransducer.cc:3234-3246). -/
def getFlags (g : Graph) : List Sym := g.alphabet.filter fun x => Flags.isDiacritic x

/-- `purge_symbol` (libhfst/src/implementations/HfstBasicTransducer.cc:3251-3262). -/
def purgeSymbol (x flag : Sym) : Bool :=
  if !Flags.isDiacritic x then false
  else if flag = [] then true
  else Flags.getFeature x = some flag

/-- `flag_purge` (libhfst/src/implementations/HfstBasicTransducer.cc:3267-3297). -/
def flagPurge (g : Graph) (flag : Sym) : Graph :=
  let purgeArc (a : Arc) : Arc :=
    if purgeSymbol a.inp flag || purgeSymbol a.out flag then { a with inp := epsilon, out := epsilon } else a
  let g1 : Graph := { g with states := g.states.map fun l => l.map purgeArc }
  g1.removeSymbols (g1.alphabet.filter fun x => purgeSymbol x flag)

end Graph
end Hfst.Basic
