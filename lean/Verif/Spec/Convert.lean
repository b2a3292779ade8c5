import Verif.Model.Convert
import Verif.Spec.Path

/-!
# What conversion between formats has to keep

Specification of properties C81 and C82.
-/
namespace Hfst.Conv
open Hfst.Basic

/-- There is a path in the OpenFst transducer from state `s` to state `q` with the given labels and weight. -/
inductive OPath (o : Ofst) : Nat → List (Nat × Nat) → Int → Nat → Prop
  | nil (s : Nat) : OPath o s [] 0 s
  | cons {s q : Nat} {st : OState} {a : OArc} {l : List (Nat × Nat)} {w : Int} :
      o.states[s]? = some st → a ∈ st.arcs → OPath o a.next l w q → OPath o s ((a.ilabel, a.olabel) :: l) (a.weight + w) q

/-- The symbol of a label.  The label 0 is epsilon in OpenFst, whatever its name is. -/
def labelSymbol (st : SymTable) (n : Nat) : Sym := if n = 0 then epsilon else st.symbol n

/-- The OpenFst transducer accepts the sequence of symbol pairs with the weight, if the symbol tables are `i` and `j`. -/
def OAccepts (o : Ofst) (i j : SymTable) (l : List (Sym × Sym)) (w : Int) : Prop :=
  ∃ s k v q st f, o.start = some s ∧ OPath o s k v q ∧ o.states[q]? = some st ∧ st.final = some f ∧ w = v + f ∧
    l = k.map fun p => (labelSymbol i p.1, labelSymbol j p.2)

/-- States that are referred to exist. -/
structure OWF (o : Ofst) : Prop where
  start : ∀ s, o.start = some s → s < o.states.length
  next : ∀ st ∈ o.states, ∀ a ∈ st.arcs, a.next < o.states.length

/-- No label and no symbol is twice in the table, and no symbol is empty. -/
structure TableOk (st : SymTable) : Prop where
  labels : (st.map (·.1)).Nodup
  symbols : (st.map (·.2)).Nodup
  nonempty : [] ∉ st.map (·.2)

/-- All labels of transitions, except 0, are in the symbol tables. -/
def LabelsNamed (o : Ofst) (i j : SymTable) : Prop :=
  ∀ st ∈ o.states, ∀ a ∈ st.arcs, (a.ilabel = 0 ∨ a.ilabel ∈ i.map (·.1)) ∧ (a.olabel = 0 ∨ a.olabel ∈ j.map (·.1))

/-- The transducer in which all transitions leave the first state. -/
def flat (g : Graph) : Graph := { g with states := g.states.flatten :: List.replicate (g.states.length - 1) [] }

end Hfst.Conv
