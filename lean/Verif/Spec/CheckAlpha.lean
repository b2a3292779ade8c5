import Verif.Model.Graph

/-!
# What hfst-check-alpha is for
-/
namespace Hfst.CheckAlpha
open Hfst.StdString Hfst.Basic

/-- The symbol is on some transition (transitions of libhfst/src/implementations/HfstBasicTransducer.h:156-173). -/
def Uses (g : Graph) (y : Sym) : Prop := ∃ s, ∃ a ∈ g.arcs s, y = a.inp ∨ y = a.out

/-- The two sets have the same symbols ("Compare the compatibility of alphabets", tools/src/hfst-check-alpha.cc:63). -/
def Same (a b : Sym → Prop) : Prop := ∀ y, a y ↔ b y

end Hfst.CheckAlpha
