import Verif.Model.SfstMin

/-!
# The SFST back-end: comparison, complement, difference and adding single paths

`back-ends/sfst/operators.cc` and `libhfst/src/implementations/SfstTransducer.cc`.
-/

namespace Hfst.Sfst

/-! ## Comparison -/

/-- What `compare_nodes` writes into the nodes: the `forward` pointers of the nodes of both transducers;
a node was visited exactly if its pointer has been set.  The two transducers share no nodes (which
`HfstTransducer::compare` sees to by copying). -/
abbrev Matching := (Nat → Option Nat) × (Nat → Option Nat)

/-- The first loop of `compare_nodes` (`operators.cc` 972–981); `again` is the recursive call. -/
def compareArcs (again : Nat → Nat → Matching → Option (Bool × Matching)) (nd2 : Node) :
    List (Label × Nat) → Matching → Option (Bool × Matching)
  | [], s => some (true, s)
  | a :: as, s =>
    match nd2.target a.1 with
    | none => some (false, s)
    | some t2 => (again a.2 t2 s).bind fun r => if r.1 then compareArcs again nd2 as r.2 else some (false, r.2)

/-- `Transducer::compare_nodes` (`operators.cc` 953–988). -/
def compareNodes (g1 g2 : Graph) : Nat → Nat → Nat → Matching → Option (Bool × Matching)
  | 0, _, _, _ => none
  | f + 1, n, m, s =>
    match s.1 n, s.2 m with
    | some m', some n' => some (decide (m' = m) && decide (n' = n), s)
    | some _, none => some (false, s)
    | none, some _ => some (false, s)
    | none, none =>
      let s1 : Matching := (assign s.1 n m, assign s.2 m n)
      if (g1.node n).final ≠ (g2.node m).final then some (false, s1)
      else
        (compareArcs (compareNodes g1 g2 f) (g2.node m) (g1.node n).iter s1).bind fun r =>
          if r.1 then some ((g2.node m).iter.all (fun a => ((g1.node n).target a.1).isSome), r.2)
          else some (false, r.2)

/-- `Transducer::operator==` (`operators.cc` 997–1011) and `SfstTransducer::are_equivalent`
(`SfstTransducer.cc` 1047–1050). -/
def Fst.equal (F G : Fst) : Option Bool :=
  (if F.minimised then some F else F.hopcroftMinimise).bind fun p1 =>
  (if G.minimised then some G else G.hopcroftMinimise).bind fun p2 =>
  (compareNodes p1.graph p2.graph (p1.graph.size + 1) 0 0 (fun _ => .none, fun _ => .none)).map fun r => r.1

/-! ## Complement and difference -/

/-- `negate_nodes`, the arcs added to a node (`operators.cc` 622–624). -/
def addMissing (accept : Nat) (ps : List Label) (nd : Node) : Node :=
  ps.foldl (fun nd l => if (nd.target l).isNone then { nd with arcs := (l, accept) :: nd.arcs } else nd) nd

/-- `Transducer::operator!` with `negate_nodes` (`operators.cc` 611–659).  What is thrown is `none` in the
inner `Option`. -/
def Fst.negate (F : Fst) : Option (Option Fst) :=
  if F.pairs = [] then some .none
  else
    (if F.minimised then F.copy false else F.hopcroftMinimise).bind fun na =>
    let ps := copyPairs na.pairs F.pairs
    let accept := na.graph.size
    let g1 := na.graph.newNode.setFinal accept true
    let g2 := F.pairs.foldl (fun g l => g.addArc accept l accept) g1
    (visit (fun _ nd => { nd with final := !nd.final }) (fun _ nd => addMissing accept ps nd)
      (g2.size + 1) 0 ([], g2)).map fun s => some ⟨s.2, false, false, ps⟩

/-- `Transducer::operator/` (`operators.cc` 935–944). -/
def Fst.without (F G : Fst) : Option (Option Fst) :=
  F.completeAlphabet.bind fun F1 =>
  (Fst.negate { G with pairs := copyPairs G.pairs F1.pairs }).bind fun r =>
  match r with
  | .none => some .none
  | some a1 => (F1.intersect a1).map some

/-- `SfstTransducer::subtract` (`SfstTransducer.cc` 1024–1045): a dummy pair is put into an empty alphabet.
That the alphabets of the operands change is left out. -/
def Fst.subtract (F G : Fst) : Option (Option Fst) :=
  Fst.without (if F.pairs = [] then { F with pairs := insertPair F.pairs ⟨1, 1⟩ } else F) G

/-! ## Adding single paths -/

/-- The loop of `SfstTransducer::disjunct` with a path (`SfstTransducer.cc` 991–1015): the node reached and
the nodes. -/
def walkPath : List Label → Nat × Graph → Nat × Graph
  | [], s => s
  | l :: ls, (n, g) =>
    match (g.node n).target l with
    | some t => walkPath ls (t, g)
    | none => walkPath ls (g.size, g.newNode.addArc n l g.size)

/-- `SfstTransducer::disjunct` with a path (`SfstTransducer.cc` 988–1018); the symbols have their codes
already, 0 for the names of epsilon. -/
def Fst.addPath (F : Fst) (p : List Label) : Fst :=
  let s := walkPath p (0, F.graph)
  { F with graph := s.2.setFinal s.1 true, pairs := copyPairs F.pairs p }

end Hfst.Sfst
