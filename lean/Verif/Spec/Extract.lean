import Verif.Model.Extract
import Verif.Props.FlagEngines

/-!
# What the extraction of paths should give
-/
namespace Hfst.Extract
open Hfst.Basic (Outcome Sym)
open Hfst.Conv (OArc OState Ofst SymTable)

/-- A path of the transducer: its arcs. -/
inductive View.Path (V : View) : Nat → List OArc → Nat → Prop
  | nil {q : Nat} : V.Path q [] q
  | cons {q r : Nat} {d : OState} {a : OArc} {l : List OArc} : V.node q = some d → a ∈ d.arcs → V.Path a.next l r → V.Path q (a :: l) r

/-- The symbol of a label. -/
def View.symbol (V : View) (x : Nat) : Sym := (Hfst.Basic.mapGet V.symbols x).getD []

/-- The path is wanted: it visits no state more than `cycles + 1` times, where a negative number is no limit, and its flags let it through if they
are obeyed. -/
def View.Asked (V : View) (obey : Bool) (cycles : Int) (q : Nat) (l : List OArc) : Prop :=
  (cycles < 0 ∨ ∀ r : Nat, ((q :: l.map (·.next)).count r : Int) ≤ cycles + 1) ∧
    (obey = true → Flags.sIsValidString ((l.map fun a => V.symbol a.ilabel).filter Flags.isDiacritic) = true)

/-- How a label is shown: flags can be left out. -/
def View.shown (V : View) (leaveOut : Bool) (x : Nat) : Sym := if leaveOut = true ∧ Flags.isDiacritic (V.symbol x) = true then [] else V.name x

/-- `p` is the weight and the symbols of an accepted path of the transducer that is wanted. -/
def View.Yields (V : View) (obey leaveOut : Bool) (cycles : Int) (p : Found) : Prop :=
  ∃ q l r d f, V.start = some q ∧ V.Path q l r ∧ V.node r = some d ∧ d.final = some f ∧ V.Asked obey cycles q l ∧
    p = ((l.map (·.weight)).sum + f, l.map fun a => (V.shown leaveOut a.ilabel, V.shown leaveOut a.olabel))

/-- The transducer accepts the empty path. -/
def View.AcceptsEmpty (V : View) : Prop := ∃ q d f, V.start = some q ∧ V.node q = some d ∧ d.final = some f

/-- The transducer has a cycle that can be reached. -/
def View.Cyclic (V : View) : Prop := ∃ q l r m, V.start = some q ∧ V.Path q l r ∧ m ≠ [] ∧ V.Path r m r

/-- The transducer is in order: its arcs lead to its states, which are the numbers below `size`. -/
structure View.OK (V : View) (size : Nat) : Prop where
  start : ∀ q, V.start = some q → (V.node q).isSome
  arcs : ∀ q d a, V.node q = some d → a ∈ d.arcs → (V.node a.next).isSome
  size : ∀ q, (V.node q).isSome → q < size

/-- The flags of the transducer are in order: labels have one symbol each, there are few enough flags, and no flag has an empty value. -/
structure View.FlagsOK (V : View) : Prop where
  labels : (V.symbols.map (·.1)).Nodup
  few : V.symbols.length < 32767
  values : ∀ e ∈ V.symbols, Flags.NoEmptyValue e.2

end Hfst.Extract
