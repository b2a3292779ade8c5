import Mathlib.Logic.Relation
import Verif.Model.Graph

/-!
# What the lines printed by hfst-summarize mean
-/
namespace Hfst.Summarize
open Hfst.StdString Hfst.Basic

/-- All transitions with the states they leave (transitions of libhfst/src/implementations/HfstBasicTransducer.h:156-173). -/
def allArcs (g : Graph) : List (Nat × Arc) := g.states.zipIdx.flatMap fun p => p.1.map (p.2, ·)

/-- Some transition leads from `s` to `t` (transitions of libhfst/src/implementations/HfstBasicTransducer.h:156-173). -/
def Edge (g : Graph) (s t : Nat) : Prop := ∃ a, a ∈ g.arcs s ∧ a.target = t

/-- From some state one can come back to it (the line "cyclic", tools/src/hfst-summarize.cc:436). -/
def Cyclic (g : Graph) : Prop := ∃ s, Relation.TransGen (Edge g) s s

/-- From the initial state one can come back to it (the line "cyclic at initial state", tools/src/hfst-summarize.cc:437). -/
def CyclicAtInitial (g : Graph) : Prop := Relation.TransGen (Edge g) 0 0

/-- No state has a transition without a symbol on the level `side`, or two transitions with the same one (the lines "input deterministic"
and "output deterministic", tools/src/hfst-summarize.cc:431-432). -/
def Deterministic (side : Arc → Sym) (g : Graph) : Prop :=
  ∀ l ∈ g.states, (∀ a ∈ l, side a ≠ epsilon) ∧ (l.map side).Nodup

end Hfst.Summarize
