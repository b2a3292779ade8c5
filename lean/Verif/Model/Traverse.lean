import Verif.Model.Graph

/-!
# hfst-traverse

Model of `main_loop` of tools/src/hfst-traverse.cc, which is called for the first transducer of the archive only (line 313).  Simplified:
messages other than the continuations are left out, and so are the completion and the history of the line editor; all targets of
transitions are states.
-/
namespace Hfst.Traverse
open Hfst.StdString Hfst.Basic

/-- `multimap<string, HfstState> paths` (tools/src/hfst-traverse.cc:171-172); simplified: in the order of insertion. -/
abbrev Paths := List (Str × Nat)

/-- What is added to a path for a transition (tools/src/hfst-traverse.cc:229-230). -/
def stepText (a : Arc) : Str := a.inp ++ [':'] ++ a.out ++ [' ']

/-- The paths that go on with the line (tools/src/hfst-traverse.cc:218-235). -/
def newPaths (g : Graph) (paths : Paths) (line : Sym) : Paths :=
  paths.flatMap fun p => (g.arcs p.2).filterMap fun a => if a.inp = line then some (p.1 ++ stepText a, a.target) else none

/-- One line (tools/src/hfst-traverse.cc:213-251): if no path goes on, they stay as they are. -/
def advance (g : Graph) (paths : Paths) (line : Sym) : Paths :=
  if newPaths g paths line = [] then paths else newPaths g paths line

/-- The paths after the lines (tools/src/hfst-traverse.cc:170-251). -/
def session (g : Graph) (lines : List Sym) : Paths := lines.foldl (advance g) [([], 0)]

/-- The continuations printed before the next line is read: for each path the symbols of the transitions
(tools/src/hfst-traverse.cc:191-212). -/
def screen (g : Graph) (lines : List Sym) : List (Str × List (Sym × Sym)) :=
  (session g lines).map fun p => (p.1, (g.arcs p.2).map Arc.label)

end Hfst.Traverse
