import Verif.Model.Graph
import Verif.Model.ToolStreams

/-!
# hfst-kill-paths

Model of tools/src/hfst-kill-paths.cc.

Simplifications: converting to `HfstBasicTransducer` and back is left out (properties C81, C82 and C87); messages, names and formulas
are left out; `HfstTransducer::remove_epsilons` is a parameter.
-/
namespace Hfst.KillPaths
open Hfst.StdString Hfst.Basic

/-- The variables `replication`, `rebuilt` and `state_count` of `do_killing` (tools/src/hfst-kill-paths.cc:149-152). -/
structure Copying where
  rep : Graph
  rebuilt : List (Nat × Nat)
  count : Nat

/-- The final weight of state `s` is given to state `t` of the copy (tools/src/hfst-kill-paths.cc:153-156, 164-168, 184-189). -/
def copyFinal (g : Graph) (s t : Nat) (rep : Graph) : Graph :=
  match g.final s with
  | none => rep
  | some w => rep.setFinal t w

/-- A state that has no number yet gets one (tools/src/hfst-kill-paths.cc:161-171, 182-193). -/
def visit (g : Graph) (c : Copying) (s : Nat) : Copying :=
  match mapGet c.rebuilt s with
  | some _ => c
  | none => ⟨copyFinal g s c.count (c.rep.addStateN c.count), mapPut c.rebuilt s c.count, c.count + 1⟩

/-- `rebuilt[s]` (tools/src/hfst-kill-paths.cc:195, 197); `operator[]` gives 0 for a key that is not in the map. -/
def number (c : Copying) (s : Nat) : Nat := (mapGet c.rebuilt s).getD 0

/-- The loop over the transitions of a state (tools/src/hfst-kill-paths.cc:172-198). -/
def copyArc (x : Sym) (g : Graph) (s : Nat) (c : Copying) (a : Arc) : Copying :=
  if a.inp = x ∨ a.out = x then c
  else
    let c1 := visit g c a.target
    let nu : Arc := ⟨number c1 a.target, a.inp, a.out, a.weight⟩
    { c1 with rep := c1.rep.addTransition (number c1 s) nu }

/-- The loop over the states (tools/src/hfst-kill-paths.cc:157-200). -/
def copyStates (x : Sym) (g : Graph) : Nat → List (List Arc) → Copying → Copying
  | _, [], c => c
  | s, l :: ls, c => copyStates x g (s + 1) ls (l.foldl (copyArc x g s) (visit g c s))

/-- `do_killing` (tools/src/hfst-kill-paths.cc:145-203). -/
def doKilling (x : Sym) (g : Graph) : Graph :=
  (copyStates x g 0 g.states ⟨copyFinal g 0 0 Graph.init, [(0, 0)], 1⟩).rep

/-- Whether a line is neither empty nor a comment (tools/src/hfst-kill-paths.cc:240-247).  The lines are as `hfst_getline` gives
them, with the newline character. -/
def isRule : Str → Bool
  | '\n' :: _ => false
  | '#' :: _ => false
  | _ => true

/-- The symbol of a line (tools/src/hfst-kill-paths.cc:248-253). -/
def ruleSymbol (l : Str) : Sym := l.takeWhile (· ≠ '\n')

/-- The loop over the lines of the file (tools/src/hfst-kill-paths.cc:237-256). -/
def rulesLoop : List Str → Graph → Graph
  | [], g => g
  | l :: ls, g => if isRule l then rulesLoop ls (doKilling (ruleSymbol l) g) else rulesLoop ls g

/-- The loop over the transducers with a file of rules (tools/src/hfst-kill-paths.cc:206-264).  `given`: the pointer `symbol` is not
null; `freed`: it points to memory that has been freed, so that `free(symbol)` has undefined behaviour (line 232). -/
def rulesStream (removeEpsilons : Graph → Graph) (lines : List Str) : Bool → Bool → List Graph → Tools.Run Graph
  | _, _, [] => ⟨[], .success⟩
  | given, freed, g :: gs =>
    if freed then ⟨[], .undefined⟩
    else
      Tools.Run.after (removeEpsilons (rulesLoop lines g))
        (rulesStream removeEpsilons lines (given || lines.any isRule) (given && !lines.any isRule) gs)

/-- The options: the symbol of -S and the lines of the file of -T (tools/src/hfst-kill-paths.cc:116-133). -/
structure Options where
  symbol : Option Sym := none
  file : Option (List Str) := none

/-- The loop over the transducers (tools/src/hfst-kill-paths.cc:116-133, 205-268); one of the options has to be given. -/
def killStream (removeEpsilons : Graph → Graph) (o : Options) (gs : List Graph) : Tools.Run Graph :=
  match o.file with
  | some lines => rulesStream removeEpsilons lines o.symbol.isSome false gs
  | none =>
    match o.symbol with
    | some x => ⟨gs.map fun g => removeEpsilons (doKilling x g), .success⟩
    | none => ⟨[], .failure⟩

end Hfst.KillPaths
