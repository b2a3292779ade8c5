import Verif.Model.Sfst

/-!
# The SFST back-end: minimisation, comparison, complement and difference

`back-ends/sfst/hopcroft.cc`, and parts of `fst.cc` and `operators.cc`.  The minimiser gives the nodes
numbers in the order in which `nodeindexing` finds them; here a node keeps its number and the list
`nodearray` holds that order.  Indices of groups are counted from `first_group()`; the dummy groups before
it hold the agenda, which is a list here.
-/

namespace Hfst.Sfst

/-! ## The nodes and labels in reach -/

/-- `nodeindexing` of a transducer not indexed before (`fst.cc` 189–222): the nodes in the order in which
they are found. -/
def nodeArray (g : Graph) : Option (List Nat) :=
  (visit (fun _ nd => nd) (fun _ nd => nd) (g.size + 1) 0 ([], g)).map fun s => s.1.reverse

/-- `store_symbols` (`fst.cc` 373–405) and `complete` (`fst.cc` 658–670): the labels on the arcs in reach. -/
def arcLabels (g : Graph) : Option (List Label) :=
  (nodeArray g).map fun ns => ns.flatMap fun n => (g.node n).arcs.map (fun a => a.1)

/-- `Transducer::minimise_alphabet` (`fst.cc` 414–430), as far as label pairs go. -/
def Fst.minimiseAlphabet (F : Fst) : Option Fst :=
  (arcLabels F.graph).map fun ls => { F with pairs := copyPairs [] ls }

/-- `Transducer::complete_alphabet` (`fst.cc` 679–684). -/
def Fst.completeAlphabet (F : Fst) : Option Fst :=
  (arcLabels F.graph).map fun ls => { F with pairs := copyPairs F.pairs ls }

/-! ## Minimisation by reversing and determinising twice -/

/-- `Transducer::rev_det_minimise` (`fst.cc` 438–460). -/
def Fst.revDetMinimise (F : Fst) : Option Fst :=
  if F.minimised then F.copy false
  else
    (F.reverse true).bind fun a1 =>
    (a1.determinise true).bind fun a2 =>
    (a2.reverse true).bind fun a3 =>
    (a3.determinise true).bind fun a4 =>
    Fst.minimiseAlphabet { a4 with minimised := true }

/-! ## Minimisation by Hopcroft's algorithm -/

/-- `class StateGroup` (`hopcroft.cc` 60–82): its states, beginning with `first_state` and in the order of
`next_in_group`, and likewise those beginning with `first_new_state`. -/
structure HGroup where
  states : List Nat
  fresh : List Nat

/-- The state of a `Minimiser` (`hopcroft.cc` 152–172): the groups, the group of each state, and the
agenda: buckets and groups, the smallest bucket first, and in a bucket the newest first. -/
structure Hop where
  groups : List HGroup
  groupOf : Nat → Nat
  agenda : List (Nat × Nat)

/-- `Minimiser::link_state_in` (`hopcroft.cc` 302–316). -/
def linkIn (s : Nat) : List Nat → List Nat
  | [] => [s]
  | x :: xs => x :: s :: xs

/-- `Minimiser::move_state_to_new` (`hopcroft.cc` 378–386) with `link_state_out` (340–355), for the group
of the state. -/
def Hop.move (H : Hop) (s : Nat) : Hop :=
  { H with groups := H.groups.modify (H.groupOf s) fun G => ⟨G.states.erase s, linkIn s G.fresh⟩ }

/-- `Minimiser::merge_state_lists` (`hopcroft.cc` 395–413). -/
def HGroup.merge (G : HGroup) : HGroup :=
  match G.states, G.fresh with
  | [], ys => ⟨ys, []⟩
  | xs, [] => ⟨xs, []⟩
  | x :: xs, y :: ys => ⟨x :: (ys ++ y :: xs), []⟩

/-- `Agenda::add` (`hopcroft.cc` 116–128) with the bucket at hand. -/
def addAgenda (bucket g : Nat) : List (Nat × Nat) → List (Nat × Nat)
  | [] => [(bucket, g)]
  | e :: es => if bucket ≤ e.1 then (bucket, g) :: e :: es else e :: addAgenda bucket g es

/-- `Agenda::contains` (`hopcroft.cc` 141–143). -/
def onAgenda (g : Nat) (a : List (Nat × Nat)) : Bool := a.any fun e => e.2 == g

/-- `Agenda::erase` (`hopcroft.cc` 130–139). -/
def eraseAgenda (g : Nat) (a : List (Nat × Nat)) : List (Nat × Nat) := a.filter fun e => !(e.2 == g)

/-- `Minimiser::split` (`hopcroft.cc` 566–601). -/
def Hop.split (H : Hop) (g : Nat) : Hop :=
  match H.groups[g]? with
  | none => H
  | some G =>
    let newg := H.groups.length
    let size := G.states.length
    let newSize := G.fresh.length
    { groups := H.groups.modify g (fun G => ⟨G.states, []⟩) ++ [⟨G.fresh, []⟩]
      groupOf := fun s => if s ∈ G.fresh then newg else H.groupOf s
      agenda :=
        if onAgenda g H.agenda = true then
          addAgenda newSize.log2 newg (addAgenda size.log2 g (eraseAgenda g H.agenda))
        else if size < newSize then addAgenda size.log2 g H.agenda
        else addAgenda newSize.log2 newg H.agenda }

/-- The first loop of `process_source_groups` (`hopcroft.cc` 528–546): move the sources to the new lists
and remember the groups, the latest first. -/
def Hop.moveAll (H : Hop) (sources : List Nat) : Hop × List Nat :=
  sources.foldl (fun s x =>
    (s.1.move x,
      if (s.1.groups[s.1.groupOf x]?.map (fun G => G.fresh.isEmpty)).getD false = true then s.1.groupOf x :: s.2
      else s.2))
    (H, [])

/-- The body of the second loop of `process_source_groups` (`hopcroft.cc` 549–554). -/
def Hop.finish (H : Hop) (g : Nat) : Hop :=
  if (H.groups[g]?.map (fun G => decide (0 < G.states.length))).getD false = true then H.split g
  else { H with groups := H.groups.modify g HGroup.merge }

/-- `Minimiser::process_source_groups` (`hopcroft.cc` 525–556) for the sources of one label. -/
def Hop.process (H : Hop) (sources : List Nat) : Hop :=
  (H.moveAll sources).2.foldl Hop.finish (H.moveAll sources).1

/-- The transitions in the order of `add_transition` (`hopcroft.cc` 279–292, 422–428): source, label,
target. -/
def transitions (g : Graph) (ns : List Nat) : List (Nat × Label × Nat) :=
  ns.flatMap fun n => (g.node n).iter.map fun a => (n, a.1, a.2)

/-- `compute_source_states` (`hopcroft.cc` 485–516): the transitions into the states of a group, in the
order in which they are looked at. -/
def incoming (ts : List (Nat × Label × Nat)) (C : List Nat) : List (Nat × Label × Nat) :=
  C.flatMap fun s => (ts.filter fun t => t.2.2 = s).reverse

/-- A label in its place in the map `first_transition_for_label` (`hopcroft.cc` 164–169, 503–506). -/
def insertLabel (l : Label) : List Label → List Label
  | [] => [l]
  | m :: ms => if l = m then m :: ms else if l.before m then l :: m :: ms else m :: insertLabel l ms

/-- The labels of the map after `compute_source_states`. -/
def incomingLabels (ts : List (Nat × Label × Nat)) (C : List Nat) : List Label :=
  (incoming ts C).foldl (fun ls t => insertLabel t.2.1 ls) []

/-- The sources for one label: the list is built by prepending (`hopcroft.cc` 500–511). -/
def sourcesFor (ts : List (Nat × Label × Nat)) (C : List Nat) (l : Label) : List Nat :=
  (((incoming ts C).filter fun t => t.2.1 = l).reverse).map fun t => t.1

/-- The loop of `Minimiser::result` (`hopcroft.cc` 459–472). -/
def hopLoop (ts : List (Nat × Label × Nat)) (nodes : Nat) : Nat → Hop → Option Hop
  | 0, _ => none
  | f + 1, H =>
    match H.agenda with
    | [] => some H
    | e :: rest =>
      let C := (H.groups[e.2]?.map (fun G => G.states)).getD []
      let H1 := (incomingLabels ts C).foldl (fun H l => H.process (sourcesFor ts C l)) { H with agenda := rest }
      if H1.groups.length = nodes then some H1 else hopLoop ts nodes f H1

/-- The groups at the beginning (`hopcroft.cc` 270–292, 443–457): the final states and the others;
`none` if there are no final states. -/
def Hop.start (g : Graph) (ns : List Nat) : Option Hop :=
  let fin := (ns.filter (fun n => (g.node n).final)).foldl (fun xs s => linkIn s xs) []
  let oth := (ns.filter (fun n => !(g.node n).final)).foldl (fun xs s => linkIn s xs) []
  let groupOf := fun s => if (g.node s).final then 0 else 1
  if fin = [] then none
  else if oth = [] then some ⟨[⟨fin, []⟩], groupOf, addAgenda fin.length.log2 0 []⟩
  else some ⟨[⟨fin, []⟩, ⟨oth, []⟩], groupOf, addAgenda oth.length.log2 1 (addAgenda fin.length.log2 0 [])⟩

/-- The number of the new node of a group (`hopcroft.cc` 617–625): 0 for the group of the root, the others
in order. -/
def newIndex (root g : Nat) : Nat := if g = root then 0 else if g < root then g + 1 else g

/-- The group of a new node, the inverse. -/
def oldGroup (root j : Nat) : Nat := if j = 0 then root else if j ≤ root then j - 1 else j

/-- `Minimiser::build_transducer` (`hopcroft.cc` 610–645): for each group a node with the arcs of its first
state. -/
def Hop.build (H : Hop) (g : Graph) : Graph :=
  ⟨H.groups.length, fun j =>
    match H.groups[oldGroup (H.groupOf 0) j]? with
    | none => Node.init
    | some G =>
      match G.states with
      | [] => Node.init
      | s :: _ => ⟨((g.node s).iter.map (fun a => (a.1, newIndex (H.groupOf 0) (H.groupOf a.2)))).reverse,
          (g.node s).final⟩⟩

/-- `Minimiser::result` (`hopcroft.cc` 437–476). -/
def minimiser (A : Fst) : Option Fst :=
  (nodeArray A.graph).bind fun ns =>
  if ns.length = 1 then A.copy false
  else
    match Hop.start A.graph ns with
    | none => some (Fst.new true)
    | some H =>
      (hopLoop (transitions A.graph ns) ns.length (ns.length + 3) H).map fun H' =>
        ⟨H'.build A.graph, true, true, copyPairs [] A.pairs⟩

/-- `Transducer::hopcroft_minimise` (`hopcroft.cc` 228–248), the way minimisation is done by default
(`fst.cc` 24, `fst.h` 344–348). -/
def Fst.hopcroftMinimise (F : Fst) : Option Fst :=
  if F.minimised then F.copy false
  else
    (F.reverse false).bind fun a1 =>
    (a1.reverse false).bind fun a2 =>
    (a2.determinise false).bind fun a3 =>
    (minimiser a3).bind fun r =>
    Fst.minimiseAlphabet { r with minimised := true, pairs := copyPairs r.pairs F.pairs }

end Hfst.Sfst
