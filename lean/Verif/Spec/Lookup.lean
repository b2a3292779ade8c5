import Verif.Spec.Path

/-!
# What looking up a string means

Specification used by the properties about lookup.  A run is a sequence of steps; each step is a transition together with
the input symbol it consumes, if any.
-/
namespace Hfst.Basic
open Hfst.Flags

/-- One step: a transition and the input symbol that it consumes. -/
abbrev Step := Arc × Option Sym

/-- A transition may be followed without input if its input symbol is epsilon or a flag; it may consume a symbol that is its
input symbol, and unknown and identity may consume any symbol that is not in the alphabet. -/
def Fits (alphabet : List Sym) : Step → Prop
  | (a, none) => a.inp = epsilon ∨ isDiacritic a.inp = true
  | (a, some c) => a.inp = c ∨ ((a.inp = identity ∨ a.inp = unknown) ∧ c ∉ alphabet)

/-- A sequence of steps from one state to another. -/
inductive Run (g : Graph) : Nat → List Step → Nat → Prop
  | nil (s : Nat) : Run g s [] s
  | cons {s q : Nat} {x : Step} {l : List Step} : x.1 ∈ g.arcs s → Fits g.alphabet x → Run g x.1.target l q →
      Run g s (x :: l) q

/-- The input that a run consumes. -/
def inputOf (l : List Step) : List Sym := l.filterMap (·.2)

/-- The symbol pair shown for a step: what was consumed stands for the input symbol, and for the output symbol of an identity
transition. -/
def shown : Step → Sym × Sym
  | (a, none) => (a.inp, a.out)
  | (a, some c) => (c, if a.inp = identity then c else a.out)

/-- The weight of a run. -/
def weightOf (l : List Step) : Int := (l.map (·.1.weight)).sum

/-- The flags on a run. -/
def flagsOf (l : List Step) : List Sym := (l.map fun x => (shown x).1).filter isDiacritic

/-- `r` is an analysis of `input`: an accepting run that consumes it, with what the run shows and its weight. -/
def IsAnalysis (g : Graph) (input : List Sym) (l : List Step) (r : Int × List (Sym × Sym)) : Prop :=
  ∃ q f, Run g 0 l q ∧ g.final q = some f ∧ inputOf l = input ∧ r = (weightOf l + f, l.map shown)

/-- The state where a run from `s` ends. -/
def endState (s : Nat) (l : List Step) : Nat := (l.getLast?.map (·.1.target)).getD s

/-- How often a run comes to a state where it was before (`seen`, or on the way). -/
def returns : List Nat → List Step → Nat
  | _, [] => 0
  | seen, x :: l => (if x.1.target ∈ seen then 1 else 0) + returns (x.1.target :: seen) l

/-- In no stretch of a run that consumes nothing does the run return more than `k` times to a state of that stretch. -/
def FewReturns (k : Nat) (s : Nat) (l : List Step) : Prop :=
  ∀ before stretch after, l = before ++ stretch ++ after → (∀ x ∈ stretch, x.2 = none) →
    returns [endState s before] stretch ≤ k

end Hfst.Basic
