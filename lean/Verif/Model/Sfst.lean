/-!
# The SFST back-end: transducers as graphs of nodes

`back-ends/sfst/fst.h`, `fst.cc`, `operators.cc` and `determinise.cc`.  A node in memory is a number
(its address), number 0 is the root.  The two linked lists of arcs of a node (`first_epsilon_arcp` and
`first_arcp`, `fst.h` 85–87) are the two filters of one list, newest arc first; `add_arc` puts the new arc
at the head of the list its label belongs to, so this loses nothing.

Recursive functions get a number of steps and answer `none` if it is used up; the theorems show that this
never happens.  Not modelled: running out of memory, the printing of messages, the symbol table (codes are
numbers), and the 16-bit generation counter `vmark`: each traversal starts with no node marked, which is
what `incr_vmark` (`fst.h` 237–244) sees to.
-/

namespace Hfst.Sfst

/-- `class Label` (`alphabet.h` 49–60): the code of the lower and of the upper symbol, 0 is epsilon. -/
structure Label where
  lower : Nat
  upper : Nat
deriving DecidableEq, Repr

/-- `Label()` (`alphabet.h` 62): the label 0:0. -/
def Label.eps : Label := ⟨0, 0⟩

/-- `Label::is_epsilon` (`alphabet.h` 111–112). -/
def Label.isEps (l : Label) : Bool := l.upper == 0 && l.lower == 0

/-- `Label::replace_char` (`alphabet.h` 79–86). -/
def Label.replaceChar (c nc : Nat) (l : Label) : Label :=
  ⟨if l.lower = c then nc else l.lower, if l.upper = c then nc else l.upper⟩

/-- `Label::operator<` (`alphabet.h` 95–103): by upper, then by lower symbol. -/
def Label.before (a b : Label) : Bool :=
  if a.upper < b.upper then true
  else if a.upper > b.upper then false
  else if a.lower < b.lower then true
  else false

/-- `typedef enum {upper, lower} Level` (`alphabet.h` 44). -/
inductive Level
  | upper
  | lower
deriving DecidableEq, Repr

/-- `Label::get_char` (`alphabet.h` 69–70). -/
def Label.getChar (lv : Level) (l : Label) : Nat :=
  match lv with
  | .upper => l.upper
  | .lower => l.lower

/-- `class Node` (`fst.h` 156–186) without marks and forward pointers, which live in the traversals
below.  `arcs`: newest first. -/
structure Node where
  arcs : List (Label × Nat)
  final : Bool
deriving DecidableEq, Repr

/-- `Node::init` (`fst.cc` 152–159). -/
def Node.init : Node := ⟨[], false⟩

/-- `ArcsIter(arcs, eps)` (`fst.h` 136–137). -/
def Node.epsArcs (n : Node) : List (Label × Nat) := n.arcs.filter (fun a => a.1.isEps)

/-- `ArcsIter(arcs, non_eps)` (`fst.h` 134–135). -/
def Node.otherArcs (n : Node) : List (Label × Nat) := n.arcs.filter (fun a => !a.1.isEps)

/-- `ArcsIter(arcs)` (`fst.h` 124–149): the epsilon arcs, then the others. -/
def Node.iter (n : Node) : List (Label × Nat) := n.epsArcs ++ n.otherArcs

/-- `Arcs::target_node` (`fst.cc` 61–71): the first arc with this label, epsilon arcs are not looked at. -/
def Node.target (n : Node) (l : Label) : Option Nat :=
  (n.otherArcs.find? (fun a => a.1 = l)).map (fun a => a.2)

/-- The memory of a transducer (`fst.h` 224–231): the nodes made so far. -/
structure Graph where
  size : Nat
  node : Nat → Node

/-- A new `Transducer` (`fst.h` 283–288): a root without arcs. -/
def Graph.fresh : Graph := ⟨1, fun _ => Node.init⟩

/-- `Transducer::new_node` (`fst.cc` 80–87): the new node has the number `g.size`. -/
def Graph.newNode (g : Graph) : Graph :=
  ⟨g.size + 1, fun j => if j = g.size then Node.init else g.node j⟩

/-- A change of one node. -/
def Graph.modify (g : Graph) (i : Nat) (f : Node → Node) : Graph :=
  ⟨g.size, fun j => if j = i then f (g.node j) else g.node j⟩

/-- `Node::add_arc` (`fst.h` 173, `fst.cc` 111–124). -/
def Graph.addArc (g : Graph) (n : Nat) (l : Label) (t : Nat) : Graph :=
  g.modify n (fun nd => { nd with arcs := (l, t) :: nd.arcs })

/-- `Node::set_final` (`fst.h` 169). -/
def Graph.setFinal (g : Graph) (n : Nat) (b : Bool) : Graph :=
  g.modify n (fun nd => { nd with final := b })

/-- `class Transducer` (`fst.h` 224–288): the nodes, what is claimed about them, and the label pairs of
the alphabet (`alphabet.h`, the set `ls`). -/
structure Fst where
  graph : Graph
  deterministic : Bool
  minimised : Bool
  pairs : List Label

/-- `Transducer( bool empty=false )` (`fst.h` 283–288). -/
def Fst.new (empty : Bool) : Fst := ⟨Graph.fresh, empty, empty, []⟩

/-- `Alphabet::insert` (`alphabet.h` 212): epsilon is not stored. -/
def insertPair (ls : List Label) (l : Label) : List Label :=
  if l.isEps then ls else if l ∈ ls then ls else l :: ls

/-- `Alphabet::copy` as far as label pairs go (`alphabet.cc`): insert all of them. -/
def copyPairs (ls more : List Label) : List Label := more.foldl insertPair ls

/-! ## Building a transducer from keys -/

/-- What the building functions have at hand: the new transducer and the map from keys (node sets, node
pairs, old nodes) to new nodes (`PairMapping`, `fst.h` 191–219; `NodeMapping`, `determinise.cc` 75–109;
the forward pointers of marked nodes). -/
structure Build (K : Type) where
  graph : Graph
  map : K → Option Nat

/-- `map[k] = m`. -/
def assign {K : Type} [DecidableEq K] (f : K → Option Nat) (k : K) (m : Nat) : K → Option Nat :=
  fun k' => if k' = k then some m else f k'

/-- The body of the loops in `determinise_node` (`determinise.cc` 245–258), `conjoin_nodes`
(`operators.cc` 684–703), `add_transition` (`operators.cc` 761–790), `map_nodes` (1033–1046),
`replace_char2` (1252–1263) and `copy_nodes` (435–442): an arc to the node of a known key, or to a new
node that is then worked on by `rec`.  `late`: the arc is added after that work (`copy_nodes`). -/
def linkArc {K : Type} [DecidableEq K] (late : Bool) (rec : K → Nat → Build K → Option (Build K))
    (n : Nat) (b : Build K) (a : Label × K) : Option (Build K) :=
  match b.map a.2 with
  | some m => some { b with graph := b.graph.addArc n a.1 m }
  | none =>
    let m := b.graph.size
    let b1 : Build K := ⟨b.graph.newNode, assign b.map a.2 m⟩
    if late then
      (rec a.2 m b1).map (fun b2 => { b2 with graph := b2.graph.addArc n a.1 m })
    else
      rec a.2 m { b1 with graph := b1.graph.addArc n a.1 m }

/-- The recursion shared by those functions: make node `n` for key `k`.  `succ k` lists the arcs the
function makes for `k` in the order it makes them, `final k` tells whether it makes the node final. -/
def explore {K : Type} [DecidableEq K] (late : Bool) (succ : K → List (Label × K)) (final : K → Bool) :
    Nat → K → Nat → Build K → Option (Build K)
  | 0, _, _, _ => none
  | f + 1, k, n, b =>
    (succ k).foldlM (linkArc late (explore late succ final f) n)
      { b with graph := b.graph.setFinal n (final k) }

/-! ## Copying -/

/-- `Transducer::copy_nodes` (`operators.cc` 423–446) into the graph `a`, without recoding of symbols:
the new node of `root` and the new graph.  `f` is what `recode_label` (400–414) does to a label. -/
def copyNodes (g : Graph) (f : Label → Label) (root : Nat) (a : Graph) : Option (Nat × Graph) :=
  (explore true (fun n => (g.node n).iter.map (fun arc => (f arc.1, arc.2))) (fun n => (g.node n).final)
    (g.size + 1) root a.size ⟨a.newNode, assign (fun _ => none) root a.size⟩).map
      (fun b => (a.size, b.graph))

/-- `recode_label` with `lswitch` (`operators.cc` 403–404). -/
def Label.swap (l : Label) : Label := ⟨l.upper, l.lower⟩

/-- `Transducer::copy` (`operators.cc` 455–493), `switch_levels` (`fst.h` 332) is `copy(true)`. -/
def Fst.copy (F : Fst) (lswitch : Bool) : Option Fst :=
  let f : Label → Label := fun l => if lswitch then l.swap else l
  (explore true (fun n => (F.graph.node n).iter.map (fun arc => (f arc.1, arc.2)))
    (fun n => (F.graph.node n).final) (F.graph.size + 1) 0 0
    ⟨Graph.fresh, assign (fun _ => none) 0 0⟩).map
      (fun b => ⟨b.graph, F.deterministic, F.minimised,
        if lswitch then (F.pairs.map Label.swap).foldl insertPair [] else copyPairs [] F.pairs⟩)

/-- `Transducer::operator|` (`operators.cc` 502–515). -/
def Fst.union (F G : Fst) : Option Fst :=
  (copyNodes F.graph id 0 Graph.fresh).bind fun (n1, a1) =>
  (copyNodes G.graph id 0 (a1.addArc 0 Label.eps n1)).bind fun (n2, a2) =>
  some ⟨a2.addArc 0 Label.eps n2, false, false, copyPairs (copyPairs [] F.pairs) G.pairs⟩

/-! ## Changing all nodes in place -/

/-- The traversal of `rec_cat_nodes` (`operators.cc` 524–541), `negate_nodes` (611–626) and
`freely_insert_at_node` (1082–1094): mark the node, change it by `pre`, go on along its arcs, change it by
`post`.  The list holds the marked nodes. -/
def visit (pre post : Nat → Node → Node) : Nat → Nat → List Nat × Graph → Option (List Nat × Graph)
  | 0, _, _ => none
  | f + 1, n, s =>
    if n ∈ s.1 then some s
    else
      let g1 := s.2.modify n (pre n)
      (((g1.node n).iter.foldlM (fun s' arc => visit pre post f arc.2 s') (n :: s.1, g1)).map
        (fun s' => (s'.1, s'.2.modify n (post n))))

/-- `rec_cat_nodes`: what is done to a node after its arcs (`operators.cc` 535–539). -/
def catNode (node2 : Nat) (nd : Node) : Node :=
  if nd.final then ⟨(Label.eps, node2) :: nd.arcs, false⟩ else nd

/-- `Transducer::rec_cat_nodes` after `incr_vmark` (`operators.cc` 524–541). -/
def recCat (g : Graph) (node node2 : Nat) : Option Graph :=
  (visit (fun _ nd => nd) (fun _ => catNode node2) (g.size + 1) node ([], g)).map (fun s => s.2)

/-- `Transducer::operator+` (`operators.cc` 550–571). -/
def Fst.concat (F G : Fst) : Option Fst :=
  (copyNodes F.graph id 0 Graph.fresh).bind fun (n1, a1) =>
  (copyNodes G.graph id 0 (a1.addArc 0 Label.eps n1)).bind fun (n2, a2) =>
  (recCat a2 0 n2).bind fun a3 =>
  some ⟨a3, false, false, copyPairs (copyPairs [] F.pairs) G.pairs⟩

/-- `Transducer::kleene_star` (`operators.cc` 581–602). -/
def Fst.star (F : Fst) : Option Fst :=
  (F.copy false).bind fun na =>
  (Fst.concat ⟨Graph.fresh.setFinal 0 true, false, false, []⟩
    { na with pairs := copyPairs na.pairs F.pairs }).bind fun na =>
  (recCat na.graph 0 0).bind fun a =>
  some ⟨a.setFinal 0 true, false, false, na.pairs⟩

/-- `Transducer::freely_insert_at_node` (`operators.cc` 1082–1094). -/
def Fst.freelyInsert (F : Fst) (l : Label) : Option Fst :=
  (F.copy false).bind fun na =>
  ((visit (fun n nd => { nd with arcs := (l, n) :: nd.arcs }) (fun _ nd => nd) (na.graph.size + 1) 0
    ([], na.graph)).map (fun s => { na with graph := s.2 }))

/-! ## Reversal -/

/-- `Transducer::reverse_node` (`operators.cc` 347–371) with the forward pointers of marked nodes. -/
def reverseNode (g : Graph) : Nat → Nat → Build Nat → Option (Build Nat)
  | 0, _, _ => none
  | f + 1, n, b =>
    match b.map n with
    | some _ => some b
    | none =>
      let m := b.graph.size
      let g1 := b.graph.newNode
      let g2 := if (g.node n).final then g1.addArc 0 Label.eps m else g1
      (g.node n).iter.foldlM
        (fun b' arc => (reverseNode g f arc.2 b').bind fun b2 =>
          (b2.map arc.2).map fun t => { b2 with graph := b2.graph.addArc t arc.1 m })
        ⟨g2, assign b.map n m⟩

/-- `Transducer::reverse` (`operators.cc` 380–391). -/
def Fst.reverse (F : Fst) (copyAlphabet : Bool) : Option Fst :=
  (reverseNode F.graph (F.graph.size + 1) 0 ⟨Graph.fresh, fun _ => none⟩).bind fun b =>
  (b.map 0).map fun r =>
    ⟨b.graph.setFinal r true, false, false, if copyAlphabet then copyPairs [] F.pairs else []⟩

/-! ## Determinisation -/

/-- `set<Node*>::insert`: the nodes of a set in order. -/
def insertNode (n : Nat) : List Nat → List Nat
  | [] => [n]
  | m :: ms => if n < m then n :: m :: ms else if n = m then m :: ms else m :: insertNode n ms

/-- `NodeSet::add` (`determinise.cc` 142–155). -/
def addNode (g : Graph) : Nat → List Nat → Nat → Option (List Nat)
  | 0, _, _ => none
  | f + 1, ns, n =>
    if n ∈ ns then some ns
    else (g.node n).epsArcs.foldlM (fun ns' arc => addNode g f ns' arc.2) (insertNode n ns)

/-- `class NodeArray` (`determinise.cc` 47–60): the nodes with arcs other than epsilon, and whether one
of all nodes is final. -/
structure NodeArray where
  nodes : List Nat
  final : Bool
deriving DecidableEq

/-- `NodeArray::NodeArray` (`determinise.cc` 164–179). -/
def NodeArray.of (g : Graph) (ns : List Nat) : NodeArray :=
  ⟨ns.filter (fun n => !(g.node n).otherArcs.isEmpty), ns.any (fun n => (g.node n).final)⟩

/-- `Label2NodeSet::operator[]` on a map ordered by label (`determinise.cc` 114–130): the set of a label,
an empty one if there is none yet, is replaced by `f` of it. -/
def updateSet (f : List Nat → Option (List Nat)) (l : Label) :
    List (Label × List Nat) → Option (List (Label × List Nat))
  | [] => (f []).map (fun s => [(l, s)])
  | (l', s) :: rest =>
    if l = l' then (f s).map (fun s' => (l', s') :: rest)
    else if l.before l' then (f []).map (fun s' => (l, s') :: (l', s) :: rest)
    else (updateSet f l rest).map (fun r => (l', s) :: r)

/-- `compute_transitions` (`determinise.cc` 208–228): the map from labels to node sets. -/
def labelSets (g : Graph) (na : NodeArray) : Option (List (Label × List Nat)) :=
  (na.nodes.flatMap (fun n => (g.node n).otherArcs)).foldlM
    (fun m arc => updateSet (fun s => addNode g (g.size + 1) s arc.2) arc.1 m) []

/-- `compute_transitions` (`determinise.cc` 208–228): the transitions of a node array.  The steps
always suffice (`labelSets_total` in `Verif/Lemmas/SfstDet.lean`). -/
def computeTransitions (g : Graph) (na : NodeArray) : List (Label × NodeArray) :=
  ((labelSets g na).getD []).map (fun e => (e.1, NodeArray.of g e.2))

/-- `Transducer::determinise` (`determinise.cc` 268–295) with `determinise_node` (237–259). -/
def Fst.determinise (F : Fst) (copyAlphabet : Bool) : Option Fst :=
  if F.deterministic then F.copy false
  else
    (addNode F.graph (F.graph.size + 1) [] 0).bind fun ns =>
    let na := NodeArray.of F.graph ns
    (explore false (computeTransitions F.graph) (fun k => k.final) (2 ^ F.graph.size * 2 + 1) na 0
      ⟨Graph.fresh, assign (fun _ => none) na 0⟩).map fun b =>
        ⟨b.graph, true, false, if copyAlphabet then copyPairs [] F.pairs else []⟩

/-! ## Intersection -/

/-- The arcs `conjoin_nodes` makes for a pair of nodes (`operators.cc` 677–704). -/
def conjoinSucc (g1 g2 : Graph) (p : Nat × Nat) : List (Label × (Nat × Nat)) :=
  (g1.node p.1).iter.filterMap fun arc =>
    ((g2.node p.2).target arc.1).map fun t2 => (arc.1, (arc.2, t2))

/-- `Transducer::operator&` (`operators.cc` 714–752) with `conjoin_nodes` (668–705). -/
def Fst.intersect (F G : Fst) : Option Fst :=
  (if F.deterministic then some F else F.determinise true).bind fun F1 =>
  (if G.deterministic then some G else G.determinise true).bind fun G1 =>
  (explore false (conjoinSucc F1.graph G1.graph)
    (fun p => (F1.graph.node p.1).final && (G1.graph.node p.2).final)
    (F1.graph.size * G1.graph.size + 1) (0, 0) 0 ⟨Graph.fresh, assign (fun _ => none) (0, 0) 0⟩).map
      fun b => ⟨b.graph, true, false, copyPairs (copyPairs [] F.pairs) G.pairs⟩

/-! ## Composition -/

/-- The number of different elements of a list. -/
def distinct (xs : List Nat) : Nat := xs.eraseDups.length

/-- The arcs `compose_nodes` makes for a pair of nodes (`operators.cc` 799–898).  The table of
`CharNode2Trans` (47–151) holds for a node and a symbol the arcs of the node with that symbol on the
upper (first transducer) or lower (second) layer, in the order of `ArcsIter`, and for a node the number
of different such symbols; it is read here straight from the node. -/
def composeSucc (g1 g2 : Graph) (p : Nat × Nat) : List (Label × (Nat × Nat)) :=
  let arcs1 := (g1.node p.1).iter
  let arcs2 := (g2.node p.2).iter
  if distinct (arcs1.map (fun a => a.1.upper)) ≤ distinct (arcs2.map (fun a => a.1.lower)) then
    arcs1.flatMap (fun a1 =>
      if a1.1.upper = 0 then [(a1.1, (a1.2, p.2))]
      else (arcs2.filter (fun a2 => a2.1.lower = a1.1.upper)).map
        (fun a2 => (⟨a1.1.lower, a2.1.upper⟩, (a1.2, a2.2)))) ++
    (arcs2.filter (fun a2 => a2.1.lower = 0)).map (fun a2 => (a2.1, (p.1, a2.2)))
  else
    arcs2.flatMap (fun a2 =>
      if a2.1.lower = 0 then [(a2.1, (p.1, a2.2))]
      else (arcs1.filter (fun a1 => a1.1.upper = a2.1.lower)).map
        (fun a1 => (⟨a1.1.lower, a2.1.upper⟩, (a1.2, a2.2)))) ++
    (arcs1.filter (fun a1 => a1.1.upper = 0)).map (fun a1 => (a1.1, (a1.2, p.2)))

/-- `Transducer::operator||` (`operators.cc` 907–925) with `compose_nodes` and `add_transition`
(761–898).  The label pairs of `Alphabet::compose` are left out. -/
def Fst.compose (F G : Fst) : Option Fst :=
  (explore false (composeSucc F.graph G.graph)
    (fun p => (F.graph.node p.1).final && (G.graph.node p.2).final)
    (F.graph.size * G.graph.size + 1) (0, 0) 0 ⟨Graph.fresh, assign (fun _ => none) (0, 0) 0⟩).map
      fun b => ⟨b.graph, false, false, []⟩

/-! ## One level, other symbols -/

/-- `Transducer::level` (`operators.cc` 1057–1073) with `map_nodes` (1021–1048). -/
def Fst.level (F : Fst) (lv : Level) : Option Fst :=
  (explore false (fun n => (F.graph.node n).iter.map
      (fun arc => (⟨arc.1.getChar lv, arc.1.getChar lv⟩, arc.2)))
    (fun n => (F.graph.node n).final) (F.graph.size + 1) 0 0
    ⟨Graph.fresh, assign (fun _ => none) 0 0⟩).map
      fun b => ⟨b.graph, false, false,
        (F.pairs.map (fun l => (⟨l.getChar lv, l.getChar lv⟩ : Label))).foldl insertPair []⟩

/-- `Transducer::replace_char` (`operators.cc` 1215–1231) with `replace_char2` (1240–1265). -/
def Fst.replaceChar (F : Fst) (c nc : Nat) : Option Fst :=
  (explore false (fun n => (F.graph.node n).iter.map (fun arc => (arc.1.replaceChar c nc, arc.2)))
    (fun n => (F.graph.node n).final) (F.graph.size + 1) 0 0
    ⟨Graph.fresh, assign (fun _ => none) 0 0⟩).map
      fun b => ⟨b.graph, false, false, (F.pairs.map (Label.replaceChar c nc)).foldl insertPair []⟩

/-! ## Operations of the HFST interface made of these -/

/-- `create_empty_transducer` (`SfstTransducer.cc` 382–386): a root that is not final. -/
def Fst.none : Fst := ⟨Graph.fresh, false, false, []⟩

/-- `create_epsilon_transducer` (`SfstTransducer.cc` 388–392): a final root. -/
def Fst.epsilon : Fst := ⟨Graph.fresh.setFinal 0 true, false, false, []⟩

/-- `SfstTransducer::repeat_plus` (`SfstTransducer.cc` 556–560). -/
def Fst.plus (F : Fst) : Option Fst := F.star.bind fun S => F.concat S

/-- `SfstTransducer::repeat_n` (`SfstTransducer.cc` 562–571). -/
def Fst.repeatN (F : Fst) (n : Nat) : Option Fst :=
  (List.range n).foldlM (fun power _ => power.concat F) Fst.epsilon

/-- `SfstTransducer::repeat_le_n` (`SfstTransducer.cc` 573–584); the overflow of `n+1` for the greatest
`unsigned int` is left out. -/
def Fst.repeatLeN (F : Fst) (n : Nat) : Option Fst :=
  (List.range (n + 1)).foldlM (fun result i => (F.repeatN i).bind fun power => power.union result) Fst.none

/-- `SfstTransducer::optionalize` (`SfstTransducer.cc` 586–590). -/
def Fst.optional (F : Fst) : Option Fst := F.union Fst.epsilon

end Hfst.Sfst
