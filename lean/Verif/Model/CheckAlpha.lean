import Verif.Model.Graph
import Verif.Model.ToolStreams

/-!
# hfst-check-alpha

Model of tools/src/hfst-check-alpha.cc.  Simplified: the names of the transducers and what --verbose adds are left out; the symbols of a set
are printed in some order.
-/
namespace Hfst.CheckAlpha
open Hfst.StdString Hfst.Basic

/-- A transducer of an archive: its graph, and its alphabet if its format has one (tools/src/hfst-check-alpha.cc:151-163, 179-191). -/
structure Item where
  graph : Graph
  sigma : Option (List Sym)

/-- The symbols of the transitions (tools/src/hfst-check-alpha.cc:164-178, 192-205). -/
def seen (g : Graph) : List Sym :=
  g.states.foldl (fun s l => l.foldl (fun s a => setInsert (setInsert s a.inp) a.out) s) []

/-- `std::set_difference` (called in tools/src/hfst-check-alpha.cc:209-212, 227-230, 257-268). -/
def minus (a b : List Sym) : List Sym := a.filter (· ∉ b)

/-- The first or the second transducer (tools/src/hfst-check-alpha.cc:222, 240). -/
inductive Which | first | second
  deriving DecidableEq

/-- The lines printed: the symbols only one of the two has, or that it is a superset of the other; for the symbols seen
(tools/src/hfst-check-alpha.cc:207-243) and for the alphabets (lines 253-308). -/
inductive Line
  | only (alphabets : Bool) (w : Which) (symbols : List Sym)
  | superset (alphabets : Bool) (w : Which)
  | noAlphabets
  deriving DecidableEq

/-- One of the comparisons (tools/src/hfst-check-alpha.cc:213-225 and the three like it): the line, and whether there is a difference. -/
def side (alphabets : Bool) (w : Which) (own other : List Sym) : Line × Bool :=
  let d := minus own other
  if d ≠ [] then (.only alphabets w d, true) else (.superset alphabets w, false)

/-- One pair of transducers (tools/src/hfst-check-alpha.cc:150-308): only whether the second one has an alphabet is remembered. -/
def comparePair (x y : Item) : List Line × Bool :=
  let a := side false .first (seen x.graph) (seen y.graph)
  let b := side false .second (seen y.graph) (seen x.graph)
  match y.sigma with
  | none => ([a.1, b.1, .noAlphabets], a.2 || b.2)
  | some t =>
    let s := x.sigma.getD []
    let c := side true .first s t
    let d := side true .second t s
    ([a.1, b.1, c.1, d.1], a.2 || b.2 || c.2 || d.2)

/-- The loop (tools/src/hfst-check-alpha.cc:132-315): what is printed for each pair, and whether there was a difference. -/
def compareLoop : List Item → List Item → List (List Line) × Bool
  | x :: xs, y :: ys =>
    let r := comparePair x y
    let rest := compareLoop xs ys
    (r.1 :: rest.1, r.2 || rest.2)
  | _, _ => ([], false)

/-- The tool (tools/src/hfst-check-alpha.cc:132-315). -/
def checkAlpha (xs ys : List Item) : Tools.Run (List Line) :=
  let r := compareLoop xs ys
  ⟨r.1, if r.2 then .failure else .success⟩

end Hfst.CheckAlpha
