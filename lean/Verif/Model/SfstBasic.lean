import Verif.Model.SfstFile
import Verif.Model.Graph

/-!
# The SFST back-end: marks on nodes, and conversion to and from the basic format

`back-ends/sfst/fst.h` 178–185, 237–244, `fst.cc` 185–222, `operators.cc` 225–259 and
`libhfst/src/implementations/ConvertSfstTransducer.cc`.

A walk through a transducer marks the nodes it has visited with a number.  The walks of a transducer count its own variable `vmark` up
each time; the conversion to the basic format uses one variable `VMARK` for all transducers of the program.  Both have 16 bits.
-/
namespace Hfst.Sfst
open Hfst.Basic (Outcome Sym)

/-- A transducer as an object in memory: nodes, the marks on them (`visited`, `fst.h` 161), the own counter (`vmark`, `fst.h` 227), the
nodes in the order of their numbers if they were numbered (`indexed` and `Node::index`, `fst.h` 279, 165), and the symbols with their
codes (`Alphabet::cm` and `sm`, `alphabet.h` 182–183). -/
structure Shared where
  graph : Graph
  mark : Nat → Nat
  vmark : Nat
  order : Option (List Nat)
  codes : List (Nat × Sym)

/-- The epsilon of the back-end (`EpsilonString`, `alphabet.cc` 30). -/
def sfstEpsilon : Sym := ['<', '>']

/-- `visited = vmark` in `was_visited` (`fst.h` 178–183). -/
def setMark (mark : Nat → Nat) (n v : Nat) : Nat → Nat := fun j => if j = n then v else mark j

/-- `Transducer::incr_vmark` (`fst.h` 237–244).  `clear_visited` clears the marks of the nodes in reach; here those of all nodes. -/
def Shared.incr (t : Shared) : Shared :=
  if t.vmark + 1 = 65536 then { t with mark := fun _ => 0, vmark := 1 } else { t with vmark := t.vmark + 1 }

/-- A walk through the whole transducer (`index_nodes`, `fst.cc` 189–203; `store_node`, 776–791, `copy_nodes`, `operators.cc` 423–446, and
others visit the same nodes): the nodes that were not marked, in the order in which they are met, and the marks. -/
def markWalk (g : Graph) (v : Nat) : Nat → Nat → List Nat × (Nat → Nat) → Option (List Nat × (Nat → Nat))
  | 0, _, _ => none
  | f + 1, n, s =>
    if s.2 n = v then some s
    else (g.node n).iter.foldlM (fun s a => markWalk g v f a.2 s) (s.1 ++ [n], setMark s.2 n v)

/-- An operation that walks through the whole transducer with a new mark (as `store`, `fst.cc` 867–868): the nodes it works on. -/
def Shared.walk (t : Shared) : Outcome (List Nat × Shared) :=
  match markWalk t.incr.graph t.incr.vmark (t.graph.size + 2) 0 ([], t.incr.mark) with
  | some s => .ok (s.1, { t.incr with mark := s.2 })
  | none => .undefined

/-- `Transducer::nodeindexing` (`fst.cc` 212–222) with marks. -/
def Shared.number (t : Shared) : Outcome (List Nat × Shared) :=
  match t.order with
  | some ns => .ok (ns, t)
  | none => t.walk.bind fun r => .ok (r.1, { r.2 with order := some r.1 })

/-- The loop over arcs in `is_cyclic_node` (`operators.cc` 233–239). -/
def cyclicArcs (rec : Nat → (Nat → Nat) → Option (Bool × (Nat → Nat))) (previous : List Nat) :
    List (Label × Nat) → (Nat → Nat) → Option (Bool × (Nat → Nat))
  | [], mark => some (false, mark)
  | a :: l, mark =>
    if a.2 ∈ previous then some (true, mark)
    else (rec a.2 mark).bind fun r => if r.1 then some (true, r.2) else cyclicArcs rec previous l r.2

/-- `Transducer::is_cyclic_node` (`operators.cc` 225–244).  The set `previous` as the list of the nodes on the way here. -/
def cyclicNode (g : Graph) (v : Nat) : Nat → List Nat → Nat → (Nat → Nat) → Option (Bool × (Nat → Nat))
  | 0, _, _, _ => none
  | f + 1, previous, n, mark =>
    if mark n = v then some (false, mark)
    else cyclicArcs (cyclicNode g v f (n :: previous)) (n :: previous) (g.node n).iter (setMark mark n v)

/-- `Transducer::is_cyclic` (`operators.cc` 253–259). -/
def Shared.isCyclic (t : Shared) : Outcome (Bool × Shared) :=
  match cyclicNode t.incr.graph t.incr.vmark (t.graph.size + 2) [] 0 t.incr.mark with
  | some r => .ok (r.1, { t.incr with mark := r.2 })
  | none => .undefined

/-! ## To the basic format -/

/-- `SfstTransducer::get_biggest_symbol_number` (`SfstTransducer.cc` 1314–1324). -/
def biggestCode (codes : List (Nat × Sym)) : Nat := codes.foldl (fun m e => if e.1 > m then e.1 else m) 0

/-- The symbol that a code becomes: `harmonization_vector.at(code)` (`ConvertSfstTransducer.cc` 73–74), made from `get_symbol_vector`
(`SfstTransducer.cc` 1326–1341) with epsilon at 0 (`ConvertSfstTransducer.cc` 116–121).  A code without a symbol becomes epsilon.  The
numbers of symbols in the basic format are left out: number and symbol determine each other (C31). -/
def codeSymbol (codes : List (Nat × Sym)) (c : Nat) : Outcome Sym :=
  if biggestCode codes < c then .throws
  else if c = 0 then .ok Hfst.Basic.epsilon
  else .ok ((Hfst.Basic.mapGet codes c).getD Hfst.Basic.epsilon)

/-- The loop over arcs in `sfst_to_hfst_basic_transducer` (`ConvertSfstTransducer.cc` 66–76) for the state `s`. -/
def importArcs (index : Nat → Option Nat) (codes : List (Nat × Sym)) (s : Nat) :
    List (Label × Nat) → Hfst.Basic.Graph → Outcome Hfst.Basic.Graph
  | [], b => .ok b
  | a :: l, b =>
    match index a.2 with
    | none => .undefined
    | some t =>
      (codeSymbol codes a.1.lower).bind fun x => (codeSymbol codes a.1.upper).bind fun y =>
        importArcs index codes s l (b.addTransition s ⟨t, x, y, 0⟩ false)

/-- `sfst_to_hfst_basic_transducer` for a node (`ConvertSfstTransducer.cc` 48–90). -/
def importNode (index : Nat → Option Nat) (codes : List (Nat × Sym)) (g : Graph) (v : Nat) :
    Nat → Nat → Hfst.Basic.Graph × (Nat → Nat) → Outcome (Hfst.Basic.Graph × (Nat → Nat))
  | 0, _, _ => .undefined
  | f + 1, n, s =>
    if s.2 n = v then .ok s
    else match index n with
      | none => .undefined
      | some i =>
        (importArcs index codes i (g.node n).iter (s.1.addStateN i)).bind fun b =>
          steps (fun s (a : Label × Nat) => importNode index codes g v f a.2 s) (g.node n).iter
            (if (g.node n).final then b.setFinal i 0 else b, setMark s.2 n v)

/-- `sfst_to_hfst_basic_transducer` (`ConvertSfstTransducer.cc` 96–153).  `shared` is `VMARK`.  The answer: the result, `VMARK` and the
transducer afterwards. -/
def Shared.toBasic (shared : Nat) (t : Shared) : Outcome (Hfst.Basic.Graph × Nat × Shared) :=
  t.number.bind fun r =>
    let v := if r.2.mark 0 = shared then (shared + 1) % 65536 else shared
    (importNode (indexOf r.1) t.codes t.graph v (t.graph.size + 2) 0 (Hfst.Basic.Graph.init, r.2.mark)).bind fun s =>
      .ok (s.1.addSymbols ((t.codes.filter fun e => e.1 ≠ 0).map (fun e => e.2)), v, { r.2 with mark := s.2 })

/-! ## From the basic format -/

/-- `Alphabet::add_symbol(symbol, c)` (`alphabet.cc` 213–245); the code is cut to 16 bits. -/
def addCode (codes : List (Nat × Sym)) (x : Sym) (n : Nat) : Outcome (List (Nat × Sym)) :=
  match codes.find? (fun e => e.2 = x) with
  | some e => if e.1 = n % 65536 then .ok codes else .throws
  | none => match codes.find? (fun e => e.1 = n % 65536) with
    | some _ => .throws
    | none => .ok (codes ++ [(n % 65536, x)])

/-- The loop over the alphabet (`ConvertSfstTransducer.cc` 166–172).  `number` gives the numbers of symbols in the program. -/
def exportCodes (number : Sym → Nat) : List Sym → List (Nat × Sym) → Outcome (List (Nat × Sym))
  | [], codes => .ok codes
  | x :: xs, codes =>
    if x = Hfst.Basic.epsilon ∨ x = Hfst.Basic.unknown ∨ x = Hfst.Basic.identity then exportCodes number xs codes
    else (addCode codes x (number x)).bind fun codes => exportCodes number xs codes

/-- The code that a symbol becomes (`ConvertSfstTransducer.cc` 176–182, 202–204): `harm.at(number)`, where symbols that are not in the
alphabet have 0. -/
def symbolCode (codes : List (Nat × Sym)) (x : Sym) : Nat :=
  if x = Hfst.Basic.epsilon then 0
  else if x = sfstEpsilon then 0
  else ((codes.find? (fun e => e.2 = x)).map (fun e => e.1)).getD 0

/-- `hfst_basic_transducer_to_sfst` (`ConvertSfstTransducer.cc` 158–225): state `s` becomes node `s`, and `add_arc` puts each arc before the
others (`fst.cc` 111–124).  Transitions to states beyond the last one are undefined; final states beyond the last one,
which the interface does not allow, are left out (undefined too). -/
def fromBasic (number : Sym → Nat) (b : Hfst.Basic.Graph) : Outcome Shared :=
  (exportCodes number b.alphabet [(0, sfstEpsilon), (1, Hfst.Basic.unknown), (2, Hfst.Basic.identity)]).bind fun codes =>
    if (∀ l ∈ b.states, ∀ a ∈ l, a.target < b.states.length) ∧ ∀ e ∈ b.finals, e.1 < b.states.length then
      .ok ⟨⟨b.states.length, fun s =>
        ⟨((b.arcs s).map (fun a => (⟨symbolCode codes a.inp, symbolCode codes a.out⟩, a.target))).reverse, (b.final s).isSome⟩⟩,
        fun _ => 0, 0, none, codes⟩
    else .undefined

end Hfst.Sfst
