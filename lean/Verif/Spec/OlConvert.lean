import Verif.Spec.OlLookup
import Verif.Spec.Path

/-!
# What the conversion to optimized lookup should give
-/
namespace Hfst.Ol
open Hfst.Basic

/-- The net of a graph: every symbol is replaced by its number in a table. -/
def netOf (table : List Sym) (g : Graph) : Net :=
  ⟨g.states.length, fun q => (g.arcs q).map fun a => ⟨table.idxOf a.inp, table.idxOf a.out, a.target, a.weight⟩, g.final⟩

/-- A symbol table of a graph: no symbol has two numbers, epsilon has number 0, and the table has just epsilon and the symbols of the
graph. -/
structure TableOf (g : Graph) (table : List Sym) : Prop where
  nodup : table.Nodup
  epsilon : table[0]? = some Basic.epsilon
  arcs : ∀ q, ∀ a ∈ g.arcs q, a.inp ∈ table ∧ a.out ∈ table
  alphabet : ∀ x ∈ g.alphabet, x ∈ table
  only : ∀ x ∈ table, x = Basic.epsilon ∨ x ∈ g.alphabet ∨ ∃ q, ∃ a ∈ g.arcs q, a.inp = x ∨ a.out = x

end Hfst.Ol
