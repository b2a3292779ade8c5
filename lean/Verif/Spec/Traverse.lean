import Verif.Model.Graph

/-!
# What hfst-traverse is for: "Walk through the transducer arc by arc", "Enter labels to seek all paths"
(tools/src/hfst-traverse.cc:109, 169)
-/
namespace Hfst.Traverse
open Hfst.StdString Hfst.Basic

/-- The transitions lead one after the other from state `s` to state `t` (tools/src/hfst-traverse.cc:109). -/
inductive Walk (g : Graph) : Nat → List Arc → Nat → Prop
  | stay (s : Nat) : Walk g s [] s
  | go {s t : Nat} {as : List Arc} {a : Arc} : Walk g s as t → a ∈ g.arcs t → Walk g s (as ++ [a]) a.target

/-- Some path from the initial state reads these labels (tools/src/hfst-traverse.cc:169). -/
def Readable (g : Graph) (labels : List Sym) : Prop := ∃ as t, Walk g 0 as t ∧ as.map (·.inp) = labels

/-- The lines that could be followed: a line after which there is no path is left out (the message in
tools/src/hfst-traverse.cc:246). -/
inductive Followed (g : Graph) : List Sym → List Sym → Prop
  | none : Followed g [] []
  | yes {lines labels : List Sym} {l : Sym} : Followed g lines labels → Readable g (labels ++ [l]) → Followed g (lines ++ [l]) (labels ++ [l])
  | no {lines labels : List Sym} {l : Sym} : Followed g lines labels → ¬ Readable g (labels ++ [l]) → Followed g (lines ++ [l]) labels

/-- How a path is shown: input and output of each transition, with a colon between and a blank after them
(tools/src/hfst-traverse.cc:229-230). -/
def shown (as : List Arc) : Str := as.flatMap fun a => a.inp ++ ':' :: a.out ++ [' ']

end Hfst.Traverse
