import Verif.Model.Graph

/-!
# `HfstBasicTransducer::intersect`

Model of libhfst/src/implementations/HfstBasicTransducer.cc:4154-4335.  The recursive function takes the number of nested
calls still allowed as its first argument.
-/
namespace Hfst.Basic

/-- `less_than_ignore_weight` (libhfst/src/implementations/HfstTropicalTransducerTransitionData.cc:232-243); `num` is the
global symbol numbering. -/
def labelLt (num : Sym → Nat) (a b : Arc) : Bool :=
  if num a.inp < num b.inp then true
  else if num a.inp > num b.inp then false
  else if num a.out < num b.out then true
  else false

/-- `intersection`, `state_map` and `agenda` (libhfst/src/implementations/HfstBasicTransducer.cc:4318-4320). -/
structure IState where
  graph : Graph
  map : List ((Nat × Nat) × Nat)
  agenda : List Nat

/-- `find_target_state` (libhfst/src/implementations/HfstBasicTransducer.cc:4161-4178): the state and `was_new_state`. -/
def findTarget (st : IState) (p : Nat × Nat) : IState × Nat × Bool :=
  match mapGet st.map p with
  | some s => (st, s, false)
  | none => ({ st with graph := st.graph.addState.1, map := mapPut st.map p st.graph.addState.2 }, st.graph.addState.2, true)

/-- `handle_match` (libhfst/src/implementations/HfstBasicTransducer.cc:4184-4215).  `get_final_weight` is only called for
final states; that these exist is not checked here. -/
def handleMatch (g1 : Graph) (a : Arc) (g2 : Graph) (b : Arc) (st : IState) (s : Nat) : IState × Nat :=
  let f := findTarget st (a.target, b.target)
  let g := f.1.graph.addTransition s ⟨f.2.1, a.inp, a.out, a.weight + b.weight⟩
  let g := if f.2.2 then
      match g1.final a.target, g2.final b.target with
      | some w1, some w2 => g.setFinal f.2.1 (w1 + w2)
      | _, _ => g
    else g
  ({ f.1 with graph := g }, f.2.1)

/-- The search for one transition (libhfst/src/implementations/HfstBasicTransducer.cc:4266-4306): the match, if any, and the
transitions from `start_search_from` on.  `start` are those from the old `start_search_from` on. -/
def findMatch (num : Sym → Nat) (a : Arc) (start : List Arc) : List Arc → Option Arc × List Arc
  | [] => (none, start)
  | b :: bs =>
    if labelLt num b a then findMatch num a start bs
    else if labelLt num a b then (none, b :: bs)
    else (some b, bs)

/-- The loop over the transitions of the first state (libhfst/src/implementations/HfstBasicTransducer.cc:4259-4309). -/
def matchLoop (call : Nat → Nat → Nat → IState → Outcome IState) (num : Sym → Nat) (g1 g2 : Graph) (s : Nat) :
    List Arc → List Arc → IState → Outcome IState
  | [], _, st => .ok st
  | a :: as, start, st =>
    match findMatch num a start start with
    | (none, start') => matchLoop call num g1 g2 s as start' st
    | (some b, start') =>
      let r := handleMatch g1 a g2 b st s
      if r.2 ∈ r.1.agenda then matchLoop call num g1 g2 s as start' r.1
      else match call a.target b.target r.2 r.1 with
        | .ok st' => matchLoop call num g1 g2 s as start' st'
        | .throws => .throws
        | .undefined => .undefined

/-- `find_matches` (libhfst/src/implementations/HfstBasicTransducer.cc:4234-4312); indexing outside a state vector is
undefined. -/
def findMatches (num : Sym → Nat) (g1 g2 : Graph) : Nat → Nat → Nat → Nat → IState → Outcome IState
  | 0, _, _, _, _ => .undefined
  | n + 1, s1, s2, s, st =>
    match g1.states[s1]?, g2.states[s2]? with
    | some tr1, some tr2 =>
      let st := { st with agenda := setInsert st.agenda s }
      if tr1.length = 0 ∨ tr2.length = 0 then .ok st
      else matchLoop (findMatches num g1 g2 n) num g1 g2 s tr1 tr2 st
    | _, _ => .undefined

/-- The result before the search (libhfst/src/implementations/HfstBasicTransducer.cc:4318,4325-4330). -/
def startGraph (g1 g2 : Graph) : Graph :=
  match g1.final 0, g2.final 0 with
  | some w1, some w2 => Graph.init.setFinal 0 (min w1 w2)
  | _, _ => Graph.init

/-- `intersect` (libhfst/src/implementations/HfstBasicTransducer.cc:4314-4335). -/
def intersect (fuel : Nat) (num : Sym → Nat) (g1 g2 : Graph) : Outcome Graph :=
  let g1 := g1.sortArcs num
  let g2 := g2.sortArcs num
  match findMatches num g1 g2 fuel 0 0 0 ⟨startGraph g1 g2, [((0, 0), 0)], []⟩ with
  | .ok st => .ok st.graph
  | .throws => .throws
  | .undefined => .undefined

end Hfst.Basic
