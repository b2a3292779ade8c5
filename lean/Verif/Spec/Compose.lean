import Verif.Spec.Path

/-!
# What rules mean, one by one and together

Specification for C32 and C33.  It mentions only the transitions, final weights and alphabets of the rules.
-/
namespace Hfst.Compose
open Hfst.Basic

/-- A rule, or the intersection of rules. -/
inductive RuleSpec
  | one (g : Graph)
  | both (a b : RuleSpec)

/-- A state of a rule, or a pair of states. -/
inductive RState
  | one (n : Nat)
  | both (s t : RState)
  deriving DecidableEq

/-- A rule can read `x` and write `o` in state `s`: by a transition with these symbols, or, if `x` is a symbol that it does not
know, by an identity transition. -/
def RuleStep (g : Graph) (s : Nat) (x o : Sym) (w : Int) (t : Nat) : Prop :=
  (x ≠ identity ∧ ⟨t, x, o, w⟩ ∈ g.arcs s) ∨
    (x ∉ g.alphabet ∧ o = x ∧ ∃ b ∈ g.arcs s, b.inp = identity ∧ b.weight = w ∧ b.target = t)

/-- Rules together can read `x` and write `o` if each of them can; the weights are added. -/
def RuleSpec.Step : RuleSpec → RState → Sym → Sym → Int → RState → Prop
  | .one g, .one s, x, o, w, .one t => RuleStep g s x o w t
  | .both a b, .both s t, x, o, w, .both s' t' => ∃ w1 w2, a.Step s x o w1 s' ∧ b.Step t x o w2 t' ∧ w = w1 + w2
  | _, _, _, _, _, _ => False

/-- Rules together are in a final state if each of them is; the weights are added. -/
def RuleSpec.Final : RuleSpec → RState → Int → Prop
  | .one g, .one s, w => g.final s = some w
  | .both a b, .both s t, w => ∃ w1 w2, a.Final s w1 ∧ b.Final t w2 ∧ w = w1 + w2
  | _, _, _ => False

/-- The state before anything is read. -/
def RuleSpec.start : RuleSpec → RState
  | .one _ => .one 0
  | .both a b => .both a.start b.start

/-- Some rule has the symbol in its alphabet. -/
def RuleSpec.Knows : RuleSpec → Sym → Prop
  | .one g, x => x ∈ g.alphabet
  | .both a b, x => a.Knows x ∨ b.Knows x

/-- A flag diacritic that no rule knows passes through the rules unchanged. -/
def RuleSpec.Passes (r : RuleSpec) (x : Sym) : Prop := Flags.isDiacritic x = true ∧ ¬ r.Knows x

/-- A symbol as a string: epsilon is nothing. -/
def str (x : Sym) : List Sym := if x = epsilon then [] else [x]

/-- The rules can read the string `m` and write the string `v`. -/
inductive RuleSpec.Maps (r : RuleSpec) : RState → List Sym → List Sym → Int → RState → Prop
  | nil (s : RState) : Maps r s [] [] 0 s
  | eps {s t q : RState} {o : Sym} {m v : List Sym} {w w' : Int} :
      r.Step s epsilon o w t → Maps r t m v w' q → Maps r s m (str o ++ v) (w + w') q
  | read {s t q : RState} {x o : Sym} {m v : List Sym} {w w' : Int} :
      x ≠ epsilon → ¬ r.Passes x → r.Step s x o w t → Maps r t m v w' q → Maps r s (x :: m) (str o ++ v) (w + w') q
  | pass {s q : RState} {x : Sym} {m v : List Sym} {w : Int} :
      x ≠ epsilon → r.Passes x → Maps r s m v w q → Maps r s (x :: m) (x :: v) w q

/-- The input string of a path. -/
def inputs (l : List (Sym × Sym)) : List Sym := l.flatMap fun p => str p.1

/-- The output string of a path. -/
def outputs (l : List (Sym × Sym)) : List Sym := l.flatMap fun p => str p.2

/-- The transducer relates the string `u` to the string `v` with weight `w`. -/
def Relates (g : Graph) (u v : List Sym) (w : Int) : Prop := ∃ l, Accepts g l w ∧ inputs l = u ∧ outputs l = v

/-- The rules together accept `m` and give `v`. -/
def RuleSpec.Relates (r : RuleSpec) (m v : List Sym) (w : Int) : Prop :=
  ∃ q w1 w2, r.Maps r.start m v w1 q ∧ r.Final q w2 ∧ w = w1 + w2

/-- The rule has no two transitions with the same symbols from the same state. -/
def RuleSpec.Deterministic : RuleSpec → Prop
  | .one g => ∀ s, (g.arcs s).Pairwise fun a b => ¬ (a.inp = b.inp ∧ a.out = b.out)
  | .both a b => a.Deterministic ∧ b.Deterministic

/-- The rule is a proper transducer: identity is on both sides of a transition or on none, and no state has two identity
transitions. -/
structure RuleOK (g : Graph) : Prop where
  wf : WF g
  alphabet : AlphaOK g
  paired : ∀ s, ∀ a ∈ g.arcs s, (a.inp = identity ↔ a.out = identity)
  single : ∀ s, ((g.arcs s).filter fun a => decide (a.inp = identity)).length ≤ 1

/-- All rules are proper transducers, and if there are several, they are deterministic. -/
def RuleSpec.Fine : RuleSpec → Prop
  | .one g => RuleOK g
  | .both a b => a.Fine ∧ b.Fine ∧ a.Deterministic ∧ b.Deterministic

end Hfst.Compose
