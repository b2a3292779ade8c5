import Verif.Model.Graph

/-!
# Sequences of public edits
-/
namespace Hfst.Basic

/-- The public editing calls of `HfstBasicTransducer` (declared in
libhfst/src/implementations/HfstBasicTransducer.h:261-372, 611-790, 831-870).  Not among them: the calls that hand
out references to the internal vectors (`states_and_transitions`, `transitions`), harmonization (C30), and the
weight marker functions. -/
inductive Edit where
  | addState
  | addStateN (s : Nat)
  | addTransition (s : Nat) (a : Arc) (addSyms : Bool)
  | removeTransition (s : Nat) (a : Arc) (removeSyms : Bool)
  | setFinal (s : Nat) (w : Int)
  | removeFinal (s : Nat)
  | sortArcs (num : Sym → Nat)
  | addSymbol (x : Sym)
  | addSymbols (xs : List Sym)
  | removeSymbol (x : Sym)
  | removeSymbols (xs : List Sym)
  | pruneAlphabet (force : Bool)
  | pruneAfterSubstitution (xs : List Sym)
  | removeTransitions (p : Sym × Sym)
  | substitute (old new : Sym) (inSide outSide : Bool)
  | substituteMap (m : List (Sym × Sym))
  | substitutePairMap (m : List ((Sym × Sym) × (Sym × Sym)))
  | substitutePairSet (old : Sym × Sym) (new : List (Sym × Sym))
  | substituteFunc (f : Sym × Sym → Option (List (Sym × Sym)))
  | substituteGraph (p : Sym × Sym) (h : Graph)
  | substituteGraphs (m : List (Sym × Graph))
  | insertFreely (ps : List (Sym × Sym)) (w : Int)
  | insertFreelyGraph (h : Graph)
  | disjunct (spv : List (Sym × Sym)) (w : Int)
  | complete
  | flagPurge (flag : Sym)
  | insertTransducer (s1 s2 : Nat) (h : Graph)

/-- One edit (the functions of libhfst/src/implementations/HfstBasicTransducer.cc named in `Edit`).  A transition
with an empty symbol cannot be constructed
(libhfst/src/implementations/HfstTropicalTransducerTransitionData.cc:145-149). -/
def Edit.apply (g : Graph) : Edit → Outcome Graph
  | .addState => .ok g.addState.1
  | .addStateN s => .ok (g.addStateN s)
  | .addTransition s a b => if a.inp = [] ∨ a.out = [] then .throws else .ok (g.addTransition s a b)
  | .removeTransition s a b => if a.inp = [] ∨ a.out = [] then .throws else .ok (g.removeTransition s a b)
  | .setFinal s w => .ok (g.setFinal s w)
  | .removeFinal s => .ok (g.removeFinal s)
  | .sortArcs num => .ok (g.sortArcs num)
  | .addSymbol x => .ok (g.addSymbol x)
  | .addSymbols xs => .ok (g.addSymbols xs)
  | .removeSymbol x => .ok (g.removeSymbol x)
  | .removeSymbols xs => .ok (g.removeSymbols xs)
  | .pruneAlphabet force => .ok (g.pruneAlphabet force)
  | .pruneAfterSubstitution xs => .ok (g.pruneAfterSubstitution xs)
  | .removeTransitions p => .ok (g.removeTransitions p)
  | .substitute old new i o => g.substitute old new i o
  | .substituteMap m => g.substituteMap m
  | .substitutePairMap m => g.substitutePairMap m
  | .substitutePairSet old new => g.substitutePairSet old new
  | .substituteFunc f => g.substituteFunc f
  | .substituteGraph p h => g.substituteGraph p h
  | .substituteGraphs m => g.substituteGraphs m
  | .insertFreely ps w => g.insertFreely ps w
  | .insertFreelyGraph h => g.insertFreelyGraph h
  | .disjunct spv w => g.disjunct spv w
  | .complete => g.complete
  | .flagPurge flag => .ok (g.flagPurge flag)
  | .insertTransducer s1 s2 h => .ok (g.insertTransducer s1 s2 h)

/-- A sequence of edits (libhfst/src/implementations/HfstBasicTransducer.cc) that all return normally. -/
def runEdits (g : Graph) : List Edit → Outcome Graph
  | [] => .ok g
  | e :: es =>
    match e.apply g with
    | .ok g' => runEdits g' es
    | r => r

end Hfst.Basic
