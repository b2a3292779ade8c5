import Verif.Model.SfstMin
import Verif.Model.OlFile

/-!
# The SFST back-end: transducers in files

`back-ends/sfst/fst.cc` 185–222, 737–791, 855–942, `alphabet.cc` 38–57, 213–245, 604–675, `basic.cc` 46–78, and
`libhfst/src/implementations/SfstTransducer.cc` 150–176, 210–214, 341–355.

* Numbers are written as on a little-endian machine with 16-bit `unsigned short` and 32-bit `unsigned int`.
* A file that ends inside the alphabet is an undefined outcome: the code goes on with what is in the variables.
* Errors of the disk are not modelled.
-/
namespace Hfst.Sfst
open Hfst.Basic (Outcome)
open Hfst.Ol (Bytes leBytes leNat)

/-- `class Alphabet` (`alphabet.h` 174–190): codes and symbols (`cm` and `sm`, which `add`, `alphabet.cc` 38–44, always changes
together), and the label pairs.  The order of the list is the order of iteration of the hash table. -/
structure Symbols where
  utf8 : Bool
  codes : List (Nat × Bytes)
  pairs : List Label

/-- `Alphabet::Alphabet` (`alphabet.cc` 53–58): epsilon is `<>`. -/
def Symbols.new : Symbols := ⟨false, [(0, [60, 62])], []⟩

/-- `Alphabet::add_symbol(symbol, c)` (`alphabet.cc` 213–245). -/
def Symbols.add (a : Symbols) (x : Bytes) (c : Nat) : Outcome Symbols :=
  match a.codes.find? (fun e => e.2 = x) with
  | some e => if e.1 = c then .ok a else .throws
  | none => match a.codes.find? (fun e => e.1 = c) with
    | some _ => .throws
    | none => .ok { a with codes := a.codes ++ [(c, x)] }

/-- `Alphabet::store` (`alphabet.cc` 604–631); the numbers of symbols and of pairs are cast to 16 bits. -/
def Symbols.store (a : Symbols) : Bytes :=
  [if a.utf8 then 1 else 0] ++ leBytes 2 a.codes.length ++ a.codes.flatMap (fun e => leBytes 2 e.1 ++ (e.2 ++ [0])) ++
    leBytes 2 a.pairs.length ++ a.pairs.flatMap (fun l => leBytes 2 l.lower ++ leBytes 2 l.upper)

/-- `fread` of a number of `k` bytes (C standard; used in `fst.cc` 888–904 and in `read_num`, `basic.cc` 70–78). -/
def readNumber (k : Nat) (b : Bytes) : Option (Nat × Bytes) :=
  if b.length < k then none else some (leNat (b.take k), b.drop k)

/-- `fread` where its result is checked (`fst.cc` 888–904, 932). -/
def freadNumber (k : Nat) (b : Bytes) : Outcome (Nat × Bytes) :=
  match readNumber k b with
  | some r => .ok r
  | none => .throws

/-- `read_num` where its result is not checked (`alphabet.cc` 648, 652, 665, 670–671). -/
def readUnchecked (k : Nat) (b : Bytes) : Outcome (Nat × Bytes) :=
  match readNumber k b with
  | some r => .ok r
  | none => .undefined

/-- `BUFFER_SIZE` (`alphabet.cc` 28). -/
def bufferLength : Nat := 100000

/-- `read_string` (`basic.cc` 46–59) into a buffer of `BUFFER_SIZE` characters, with the check of its result (`alphabet.cc` 653–655). -/
def readString (b : Bytes) : Outcome (Bytes × Bytes) :=
  let x := b.takeWhile (fun c => c ≠ 0)
  if bufferLength ≤ x.length then .throws
  else match b.drop x.length with
    | [] => .throws
    | _ :: rest => .ok (x, rest)

/-- The loop over symbols (`alphabet.cc` 649–662). -/
def readCodes : Nat → Symbols → Bytes → Outcome (Symbols × Bytes)
  | 0, a, b => .ok (a, b)
  | n + 1, a, b =>
    (readUnchecked 2 b).bind fun c => (readString c.2).bind fun x =>
      if x.1 = [] then .throws else (a.add x.1 c.1).bind fun a => readCodes n a x.2

/-- The loop over label pairs (`alphabet.cc` 668–673). -/
def readPairs : Nat → Symbols → Bytes → Outcome (Symbols × Bytes)
  | 0, a, b => .ok (a, b)
  | n + 1, a, b =>
    (readUnchecked 2 b).bind fun lc => (readUnchecked 2 lc.2).bind fun uc =>
      readPairs n { a with pairs := insertPair a.pairs ⟨lc.1, uc.1⟩ } uc.2

/-- `Alphabet::read` (`alphabet.cc` 641–676). -/
def Symbols.read (a : Symbols) (b : Bytes) : Outcome (Symbols × Bytes) :=
  match b with
  | [] => .undefined
  | u :: b => (readUnchecked 2 b).bind fun n =>
    (readCodes n.1 { a with utf8 := decide (u ≠ 0) } n.2).bind fun r =>
      (readUnchecked 2 r.2).bind fun n => readPairs n.1 r.1 n.2

/-- A transducer with all that is stored (`fst.h` 224–288).  `order` holds the nodes in the order of their numbers (`Node::index`)
if the transducer was indexed before. -/
structure Net where
  graph : Graph
  deterministic : Bool
  minimised : Bool
  symbols : Symbols
  order : Option (List Nat)

/-- `Transducer::nodeindexing` (`fst.cc` 212–222): does nothing to a transducer that was indexed before. -/
def Net.index (t : Net) : Outcome (List Nat) :=
  match t.order with
  | some ns => .ok ns
  | none => match nodeArray t.graph with
    | some ns => .ok ns
    | none => .undefined

/-- `SfstTransducer::number_of_states` (`SfstTransducer.cc` 341–347): the number, and the transducer, now indexed. -/
def Net.numberOfStates (t : Net) : Outcome (Nat × Net) :=
  t.index.bind fun ns => .ok (ns.length, { t with order := some ns })

/-- One step after the other, as long as nothing is thrown (C++ standard). -/
def steps {σ α : Type} (f : σ → α → Outcome σ) : List α → σ → Outcome σ
  | [], s => .ok s
  | a :: as, s => (f s a).bind fun s => steps f as s

/-- The body of the loop in `store_node` (`fst.cc` 783–789) with `store_arc_label` (759–767).  The number of a node that was never
indexed is not set; then the outcome is undefined. -/
def storeArc (index : Nat → Option Nat) (rec : Nat → List Nat × Bytes → Outcome (List Nat × Bytes)) (s : List Nat × Bytes)
    (a : Label × Nat) : Outcome (List Nat × Bytes) :=
  match index a.2 with
  | none => .undefined
  | some t => rec a.2 (s.1, s.2 ++ (leBytes 2 a.1.lower ++ (leBytes 2 a.1.upper ++ leBytes 4 t)))

/-- `store_node` (`fst.cc` 776–791) with `store_node_info` (737–750): the nodes visited so far and the bytes written so far. -/
def storeNode (g : Graph) (index : Nat → Option Nat) : Nat → Nat → List Nat × Bytes → Outcome (List Nat × Bytes)
  | 0, _, _ => .undefined
  | f + 1, n, s =>
    if n ∈ s.1 then .ok s
    else if 65535 < (g.node n).iter.length then .throws
    else steps (storeArc index (storeNode g index f)) (g.node n).iter
      (s.1 ++ [n], s.2 ++ ([if (g.node n).final then 1 else 0] ++ leBytes 2 (g.node n).iter.length))

/-- The number of a node (`Node::index`, `fst.h` 165). -/
def indexOf (ns : List Nat) (n : Nat) : Option Nat := if n ∈ ns then some (ns.idxOf n) else none

/-- `Transducer::store` (`fst.cc` 855–876), as called by `SfstOutputStream::write_transducer` (`SfstTransducer.cc` 226–233).  The
letter is `a`. -/
def Net.store (t : Net) : Outcome Bytes :=
  t.index.bind fun ns => (storeNode t.graph (indexOf ns) (t.graph.size + 2) 0 ([], [97] ++ leBytes 4 ns.length)).bind fun s =>
    .ok (s.2 ++ t.symbols.store)

/-- What `SfstOutputStream` writes into the header as property `minimal` (`SfstTransducer.cc` 210–214). -/
def Net.minimal (t : Net) : Bool := t.minimised && t.deterministic

/-- What `read_node` works on: the rest of the file, the array `p` and the transducer (`fst.cc` 885). -/
structure Reading where
  rest : Bytes
  place : Nat → Option Nat
  graph : Graph

/-- The loop over the arcs in `read_node` (`fst.cc` 896–914); `count` is the size of the array `p`. -/
def readArcs (count : Nat) (rec : Nat → Reading → Outcome Reading) (m : Nat) : Nat → Reading → Outcome Reading
  | 0, s => .ok s
  | k + 1, s =>
    (freadNumber 2 s.rest).bind fun lc => (freadNumber 2 lc.2).bind fun uc => (freadNumber 4 uc.2).bind fun t =>
      if count ≤ t.1 then .undefined
      else match s.place t.1 with
        | some q => readArcs count rec m k ⟨t.2, s.place, s.graph.addArc m ⟨lc.1, uc.1⟩ q⟩
        | none =>
          (rec s.graph.size ⟨t.2, assign s.place t.1 s.graph.size, s.graph.newNode.addArc m ⟨lc.1, uc.1⟩ s.graph.size⟩).bind
            fun s => readArcs count rec m k s

/-- `read_node` (`fst.cc` 885–916). -/
def readNode (count : Nat) : Nat → Nat → Reading → Outcome Reading
  | 0, _, _ => .undefined
  | f + 1, m, s =>
    (freadNumber 1 s.rest).bind fun c => (freadNumber 2 c.2).bind fun n =>
      readArcs count (readNode count f) m n.1 ⟨n.2, s.place, s.graph.setFinal m (decide (c.1 ≠ 0))⟩

/-- `Transducer::read_transducer_binary` (`fst.cc` 924–950) as called by `SfstInputStream::read_transducer`
(`SfstTransducer.cc` 150–176): the transducer and the rest of the file.  `isMinimal` is the property `minimal` of the header. -/
def readNet (isMinimal : Bool) (b : Bytes) : Outcome (Net × Bytes) :=
  match b with
  | [] => .throws
  | c :: b =>
    if c ≠ 97 then .throws
    else (freadNumber 4 b).bind fun n =>
      if n.1 = 0 then .undefined
      else (readNode n.1 (n.1 + 1) 0 ⟨n.2, assign (fun _ => none) 0 0, Graph.fresh⟩).bind fun s =>
        (Symbols.new.read s.rest).bind fun r => .ok (⟨s.graph, isMinimal, isMinimal, r.1, none⟩, r.2)

end Hfst.Sfst
