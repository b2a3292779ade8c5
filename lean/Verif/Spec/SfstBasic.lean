import Verif.Spec.SfstFile
import Verif.Spec.Path
import Verif.Model.SfstBasic

/-!
# What conversion between the SFST back-end and the basic format has to do

Independent of how it is done: the same states and transitions up to the numbers of states, with the symbols the codes stand for.
-/
namespace Hfst.Sfst
open Hfst.Basic (Sym)

/-- The basic transducer `b` is the transducer `g` with node `n` as state `φ n`, without the nodes out of reach: the same transitions,
with the symbols `sym` for the codes and weight 0, and the same final states, with weight 0. -/
structure IsBasic (g : Graph) (sym : Nat → Sym) (b : Hfst.Basic.Graph) (φ : Nat → Nat) : Prop where
  root : φ 0 = 0
  low : ∀ n, g.Reach 0 n → φ n < b.states.length
  inj : ∀ n m, g.Reach 0 n → g.Reach 0 m → φ n = φ m → n = m
  onto : ∀ s, s < b.states.length → ∃ n, g.Reach 0 n ∧ φ n = s
  arcs : ∀ n, g.Reach 0 n →
    (b.arcs (φ n)).Perm ((g.node n).arcs.map (fun a => ⟨φ a.2, sym a.1.lower, sym a.1.upper, 0⟩))
  final : ∀ n, g.Reach 0 n → b.final (φ n) = if (g.node n).final then some 0 else none
  finals : ∀ s w, b.final s = some w → s < b.states.length

/-- The symbol that a code stands for: epsilon for 0, for the others as the table says. -/
def Stands (codes : List (Nat × Sym)) (c : Nat) (x : Sym) : Prop :=
  if c = 0 then x = Hfst.Basic.epsilon else (c, x) ∈ codes

/-- No code has two symbols. -/
def OneSymbol (codes : List (Nat × Sym)) : Prop := ∀ c x y, (c, x) ∈ codes → (c, y) ∈ codes → x = y

/-- `sym` gives the symbols for all codes on arcs in reach. -/
def Shared.Symbolic (t : Shared) (sym : Nat → Sym) : Prop :=
  ∀ n, t.graph.Reach 0 n → ∀ a ∈ (t.graph.node n).arcs, Stands t.codes a.1.lower (sym a.1.lower) ∧ Stands t.codes a.1.upper (sym a.1.upper)

/-- All nodes in reach have the mark `m`. -/
def Shared.Uniform (t : Shared) (m : Nat) : Prop := ∀ n, t.graph.Reach 0 n → t.mark n = m

/-- No node in reach has the mark that the next walk of the transducer uses; after 65535 all marks are cleared. -/
def Shared.NextFree (t : Shared) : Prop := t.vmark + 1 = 65536 ∨ ∀ n, t.graph.Reach 0 n → t.mark n ≠ t.vmark + 1

/-- The numbers given to the nodes before, if there are any, are those of the nodes in reach, and the root has number 0. -/
def Shared.Numbered (t : Shared) : Prop :=
  ∀ ns, t.order = some ns → ns.Nodup ∧ (∃ l, ns = 0 :: l) ∧ ∀ n, n ∈ ns ↔ t.graph.Reach 0 n

/-- There is a way from a node in reach back to itself. -/
def Graph.Cyclic (g : Graph) : Prop := ∃ n l m, g.Reach 0 n ∧ g.Step n l m ∧ g.Reach m n

/-- State reached from another in a basic transducer. -/
inductive StateReach (b : Hfst.Basic.Graph) : Nat → Nat → Prop
  | refl {s : Nat} : StateReach b s s
  | step {s u : Nat} {a : Hfst.Basic.Arc} : a ∈ b.arcs s → StateReach b a.target u → StateReach b s u

/-- `r` is `b` with state `s` as state `φ s`, without weights and without the states out of reach. -/
structure SameStates (b r : Hfst.Basic.Graph) (φ : Nat → Nat) : Prop where
  root : φ 0 = 0
  inj : ∀ s u, StateReach b 0 s → StateReach b 0 u → φ s = φ u → s = u
  low : ∀ s, StateReach b 0 s → φ s < r.states.length
  onto : ∀ i, i < r.states.length → ∃ s, StateReach b 0 s ∧ φ s = i
  arcs : ∀ s, StateReach b 0 s → (r.arcs (φ s)).Perm ((b.arcs s).map (fun a => ⟨φ a.target, a.inp, a.out, 0⟩))
  final : ∀ s, StateReach b 0 s → r.final (φ s) = (b.final s).map (fun _ => 0)

/-- How the program numbers symbols: the three special symbols first, no number twice. -/
structure Numbering (number : Sym → Nat) : Prop where
  eps : number Hfst.Basic.epsilon = 0
  unk : number Hfst.Basic.unknown = 1
  idn : number Hfst.Basic.identity = 2
  inj : ∀ x y, number x = number y → x = y

/-- What a user does with a transducer (`SfstTransducer.cc` 341–347, `fst.cc` 855–876, `ConvertSfstTransducer.cc` 96–153,
`operators.cc` 253–259), and other transducers that are converted in between. -/
inductive Call
  /-- The states are counted, or anything else that numbers them. -/
  | count
  /-- It is copied, stored, or anything else that walks through all of it. -/
  | whole
  /-- It is converted to the basic format. -/
  | basic
  /-- The user asks if it is cyclic. -/
  | cyclic
  /-- Another transducer is converted to the basic format. -/
  | other (again : Bool)

/-- A call (lines as for `Call`).  The state of the program: the variable of all transducers and the transducer. -/
def Shared.call (s : Nat × Shared) : Call → Hfst.Basic.Outcome (Nat × Shared)
  | .count => s.2.number.bind fun r => .ok (s.1, r.2)
  | .whole => s.2.walk.bind fun r => .ok (s.1, r.2)
  | .basic => (s.2.toBasic s.1).bind fun r => .ok r.2
  | .cyclic => s.2.isCyclic.bind fun r => .ok (s.1, r.2)
  | .other again => .ok (if again then (s.1 + 1) % 65536 else s.1, s.2)

/-- One call after the other (lines as for `Call`). -/
def Shared.calls (cs : List Call) (s : Nat × Shared) : Hfst.Basic.Outcome (Nat × Shared) := steps Shared.call cs s

end Hfst.Sfst
