import Verif.Model.OlWalk
import Verif.Spec.OlConvert

/-!
# What walking through the tables should give
-/
namespace Hfst.Ol
open Hfst.Basic

/-- The places `l` are just the places of the transitions of state `q`. -/
def Lists (M : Machine) (N : Net) (pos : Nat → Nat) (q : Nat) (l : List Nat) : Prop :=
  (∀ k ∈ l, ∃ a ∈ N.arcs q, ∃ t, targetStart ≤ k ∧ M.transitions[k - targetStart]? = some t ∧ IsEntry M pos t a) ∧
    ∀ a ∈ N.arcs q, ∃ k ∈ l, ∃ t, targetStart ≤ k ∧ M.transitions[k - targetStart]? = some t ∧ IsEntry M pos t a

/-- Tables that can be walked through: `count` is the number of symbols. -/
structure Walkable (M : Machine) (n : Inputs) (N : Net) (pos : Nat → Nat) (count : Nat) : Prop where
  /-- The states that are only in the transition table have an entry that shows this. -/
  marker : ∀ q < N.size, targetStart ≤ pos q →
    ∃ t, M.transitions[pos q - targetStart]? = some t ∧ t.input = noSymbol ∧ t.output = noSymbol
  /-- Epsilons come before flags. -/
  sorted : ∀ (i : Nat) (t t' : Trans), M.transitions[i]? = some t → M.transitions[i + 1]? = some t' → M.kinds.Flag t.input → t'.input ≠ 0
  /-- Every symbol is epsilon, a flag or an input symbol. -/
  symbol : ∀ x < count, x = 0 ∨ M.kinds.Flag x ∨ IsInput M.kinds n x
  /-- No symbol is an insertion symbol. -/
  insertion : ∀ (x : Nat) (s : Bytes), M.alphabet.table[x]? = some s → isInsertion (asText s) = false
  input : ∀ q < N.size, ∀ a ∈ N.arcs q, a.input < count

/-- A path of a net: its transitions. -/
inductive NPath (N : Net) : Nat → List NArc → Nat → Prop
  | nil {q : Nat} : NPath N q [] q
  | cons {q r : Nat} {a : NArc} {l : List NArc} : a ∈ N.arcs q → NPath N a.target l r → NPath N q (a :: l) r

/-- The sum of the weights of a path. -/
def pathWeight (l : List NArc) : Int := (l.map (·.weight)).sum

/-- The string of a symbol. -/
def Machine.name (M : Machine) (x : Nat) : Sym := asText ((M.alphabet.table[x]?).getD [])

/-- How often the path that starts in `q` visits the state `r`. -/
def visits (q : Nat) (l : List NArc) (r : Nat) : Nat := (q :: l.map (·.target)).count r

/-- The path may be followed: it does not visit a state more than `cycles + 1` times (a negative number is no limit), and its flags allow
it, if they are obeyed. -/
def Extraction.Allows (E : Extraction) (q : Nat) (l : List NArc) : Prop :=
  (E.cycles < 0 ∨ ∀ r, (visits q l r : Int) ≤ E.cycles + 1) ∧
    ∀ fd, E.fd = some fd → fd.passes (Flags.FdState.init fd.numFeatures) (l.map (·.input)) = some true

/-- How a symbol is shown: flags can be left out. -/
def Extraction.shown (M : Machine) (E : Extraction) (x : Nat) : Bytes :=
  if E.filter = true ∧ (M.fd.getOperation x).isSome then [] else (M.alphabet.table[x]?).getD []

/-- What is reported for the path from the start to `q`: its weight, its symbols, and whether it is accepted. -/
def Extraction.report (M : Machine) (E : Extraction) (N : Net) (l : List NArc) (q : Nat) : TwoLevel × Bool :=
  ((pathWeight l + (N.final q).getD 0, l.map fun a => (E.shown M a.input, E.shown M a.output)), (N.final q).isSome)

/-- A path of a graph: its transitions. -/
inductive GPath (g : Graph) : Nat → List Arc → Nat → Prop
  | nil {q : Nat} : GPath g q [] q
  | cons {q r : Nat} {a : Arc} {l : List Arc} : a ∈ g.arcs q → GPath g a.target l r → GPath g q (a :: l) r

/-- The path from the start may be followed: it does not visit a state more than `cycles + 1` times (a negative number is no limit), and
its flags allow it, if they are obeyed. -/
def Followed (cycles : Int) (obey : Bool) (l : List Arc) : Prop :=
  (cycles < 0 ∨ ∀ r : Nat, ((0 :: l.map (·.target)).count r : Int) ≤ cycles + 1) ∧
    (obey = true → Flags.sIsValidString ((l.map (·.inp)).filter Flags.isDiacritic) = true)

/-- The bytes of a symbol; flags can be left out. -/
def symbolBytes (leaveOut : Bool) (x : Sym) : Bytes := if leaveOut = true ∧ Flags.isDiacritic x = true then [] else asBytes x

/-- What is reported for the path from the start to `q`: its weight, its symbols, and whether it is accepted. -/
def pathReport (g : Graph) (leaveOut : Bool) (l : List Arc) (q : Nat) : TwoLevel × Bool :=
  (((l.map (·.weight)).sum + (g.final q).getD 0, l.map fun a => (symbolBytes leaveOut a.inp, symbolBytes leaveOut a.out)), (g.final q).isSome)

end Hfst.Ol
