import Verif.Model.Graph

/-!
# hfst-summarize

Model of the counting loop of tools/src/hfst-summarize.cc.  Simplified: the numbers have no bound, the symbols named as the most ambiguous
ones are left out (only how often they occur is kept), and so are the averages, which are quotients of these numbers, and the lines that
depend only on the type of the transducer.
-/
namespace Hfst.Summarize
open Hfst.StdString Hfst.Basic

/-- The variables that are printed (tools/src/hfst-summarize.cc:164-206, 239). -/
structure Summary where
  states : Nat
  finalStates : Nat
  arcs : Nat
  ioEpsilons : Nat
  inputEpsilons : Nat
  outputEpsilons : Nat
  densest : Nat
  sparsest : Nat
  uniqInput : Nat
  uniqOutput : Nat
  mostInput : Nat
  mostOutput : Nat
  found : List Sym
  acceptor : Bool
  inputDeterministic : Bool
  outputDeterministic : Bool
  cyclic : Bool
  cyclicAtInitial : Bool
  pairs : List ((Sym × Sym) × Nat)
  deriving DecidableEq

/-- The values at the start (tools/src/hfst-summarize.cc:164-206, 239); `1<<31` is a negative `int`, which becomes a great `size_t`. -/
def start : Summary :=
  ⟨0, 0, 0, 0, 0, 0, 0, 18446744071562067968, 0, 0, 0, 0, [], true, true, true, false, false, []⟩

/-- `m[k]++` (tools/src/hfst-summarize.cc:268, 302, 307). -/
def bump {K : Type} [DecidableEq K] (m : List (K × Nat)) (k : K) : List (K × Nat) := mapPut m k ((mapGet m k).getD 0 + 1)

/-- The variables of one state (tools/src/hfst-summarize.cc:252-254): the transitions, and how often each symbol occurs. -/
structure Here where
  arcs : Nat
  ins : List (Sym × Nat)
  outs : List (Sym × Nat)

/-- One transition of state `s` (tools/src/hfst-summarize.cc:256-322); simplified: the symbol pairs are counted without -S, too. -/
def arcStep (s : Nat) (p : Summary × Here) (a : Arc) : Summary × Here :=
  let m := p.1
  let ins := bump p.2.ins a.inp
  let outs := bump p.2.outs a.out
  let inEps := decide (a.inp = epsilon)
  let outEps := decide (a.out = epsilon)
  ({ m with
      arcs := m.arcs + 1
      found := setInsert (setInsert m.found a.inp) a.out
      pairs := bump m.pairs (a.inp, a.out)
      acceptor := if a.inp ≠ a.out then false else m.acceptor
      ioEpsilons := if inEps && outEps then m.ioEpsilons + 1 else m.ioEpsilons
      inputEpsilons := if inEps && outEps then m.inputEpsilons + 1 else if inEps then m.inputEpsilons + 1 else m.inputEpsilons
      outputEpsilons :=
        if inEps && outEps then m.outputEpsilons + 1 else if inEps then m.outputEpsilons
        else if outEps then m.outputEpsilons + 1 else m.outputEpsilons
      inputDeterministic := if inEps || decide ((mapGet ins a.inp).getD 0 > 1) then false else m.inputDeterministic
      outputDeterministic := if outEps || decide ((mapGet outs a.out).getD 0 > 1) then false else m.outputDeterministic
      cyclic := if (s = 0 ∧ a.target = 0) ∨ s = a.target then true else m.cyclic
      cyclicAtInitial := if s = 0 ∧ a.target = 0 then true else m.cyclicAtInitial },
   ⟨p.2.arcs + 1, ins, outs⟩)

/-- The loop that looks for the greatest number of a map (tools/src/hfst-summarize.cc:331-352). -/
def most (n : Nat) (m : List (Sym × Nat)) : Nat := m.foldl (fun n e => if e.2 > n then e.2 else n) n

/-- One state (tools/src/hfst-summarize.cc:241-353). -/
def stateStep (g : Graph) (m : Summary) (p : List Arc × Nat) : Summary :=
  let m1 := { m with
    states := m.states + 1
    finalStates := if (g.final p.2).isSome then m.finalStates + 1 else m.finalStates }
  let r := p.1.foldl (arcStep p.2) (m1, ⟨0, [], []⟩)
  { r.1 with
    densest := if r.2.arcs > r.1.densest then r.2.arcs else r.1.densest
    sparsest := if r.2.arcs < r.1.sparsest then r.2.arcs else r.1.sparsest
    mostInput := most r.1.mostInput r.2.ins
    uniqInput := r.1.uniqInput + r.2.ins.length
    mostOutput := most r.1.mostOutput r.2.outs
    uniqOutput := r.1.uniqOutput + r.2.outs.length }

/-- The summary of a transducer (tools/src/hfst-summarize.cc:164-354). -/
def summarize (g : Graph) : Summary := g.states.zipIdx.foldl (stateStep g) start

/-- The symbols of the alphabet printed as missing (tools/src/hfst-summarize.cc:512-518). -/
def missing (g : Graph) : List Sym := g.alphabet.filter (· ∉ (summarize g).found)

/-- The symbol pairs printed with -S (tools/src/hfst-summarize.cc:571-577), `none`: -S without a number, where the threshold -1 is compared
as the greatest `unsigned int`. -/
def printedPairs (threshold : Option Nat) (g : Graph) : List ((Sym × Sym) × Nat) :=
  (summarize g).pairs.filter fun e => match threshold with
    | none => true
    | some n => decide (e.2 ≤ n)

end Hfst.Summarize
