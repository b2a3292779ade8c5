import Verif.Model.Graph

/-!
# hfst-affix-guessify --direction=prefix

Model of the case `GUESS_PREFIX` of `process_stream` of tools/src/hfst-affix-guessify.cc.  The other direction is not modelled.
-/
namespace Hfst.AffixGuess
open Hfst.Basic

/-- The transitions that are added (tools/src/hfst-affix-guessify.cc:257-260, 266-269). -/
def guessArc (guessState : Nat) (weight : Int) : Arc := ⟨guessState, identity, identity, weight⟩

/-- The new state with its transition (tools/src/hfst-affix-guessify.cc:254-261). -/
def withState (g : Graph) (weight : Int) : Graph :=
  (g.addState.1.setFinal g.addState.2 0).addTransition g.addState.2 (guessArc g.addState.2 weight)

/-- One transducer (tools/src/hfst-affix-guessify.cc:254-271). -/
def guessPrefix (g : Graph) (weight : Int) : Graph :=
  ((List.range ((withState g weight).maxState + 1)).map fun s => (s, guessArc g.addState.2 weight)).foldl
    (fun h e => h.addTransition e.1 e.2) (withState g weight)

end Hfst.AffixGuess
