import Verif.Model.PairTest
import Verif.Spec.Path

/-!
# What hfst-pair-test is to answer

A rule accepts a pair string if there is a path for it; the identity symbol of a rule stands for the pairs of a symbol with itself that
the alphabet of this rule does not have.
-/
namespace Hfst.PairTest
open Hfst.StdString Hfst.Basic

/-- A transition takes a pair: it has it, or it is the identity and the pair is a symbol, unknown to the rule, with itself (the meaning
of the identity symbol, libhfst/src/HfstSymbolDefs.h:45-47). -/
def Takes (g : Graph) (a : Arc) (p : Sym × Sym) : Prop :=
  (a.inp = p.1 ∧ a.out = p.2) ∨ (a.inp = identity ∧ a.out = identity ∧ p.1 = p.2 ∧ p.1 ∉ g.alphabet)

/-- A path for a pair string from a state to a final state (no code is modelled here). -/
inductive Run (g : Graph) : Nat → PairString → Prop
  | stop {s : Nat} {w : Int} : g.final s = some w → Run g s []
  | step {s : Nat} {a : Arc} {p : Sym × Sym} {ps : PairString} :
      a ∈ g.arcs s → Takes g a p → Run g a.target ps → Run g s (p :: ps)

/-- The rule accepts the pair string between word boundaries (the help text, tools/src/hfst-pair-test.cc:98-103). -/
def RuleAccepts (g : Graph) (p : PairString) : Prop :=
  Run g 0 (("@#@".toList, epsilon) :: p ++ [("@#@".toList, epsilon)])

/-- Every rule accepts the pair string. -/
def GrammarAccepts (grammar : List Rule) (p : PairString) : Prop := ∀ r ∈ grammar, RuleAccepts r.graph p

/-- Two transitions of a state with the same pair lead to the same state, as in every minimized rule. -/
def Deterministic (g : Graph) : Prop := ∀ s, ∀ a ∈ g.arcs s, ∀ b ∈ g.arcs s, a.inp = b.inp → a.out = b.out → a.target = b.target

/-- The grammar is as `hfst-twolc` writes it: its rules are deterministic, and the alphabet of each one has the symbols on the
transitions of the first rule, the three special symbols, and nothing else.  (No code is modelled here.) -/
structure Regular (grammar : List Rule) : Prop where
  deterministic : ∀ r ∈ grammar, Deterministic r.graph
  alphabet : ∀ r ∈ grammar, AlphaOK r.graph
  same : ∀ r ∈ grammar, ∀ f ∈ grammar.head?, ∀ x, x ≠ epsilon → x ≠ unknown → x ≠ identity →
    (x ∈ r.graph.alphabet ↔ ∃ s, ∃ a ∈ f.graph.arcs s, a.inp = x ∨ a.out = x)

/-- The pair string has no pair of a special symbol with itself.  (No code is modelled here.) -/
def Plain (p : PairString) : Prop := (epsilon, epsilon) ∉ p ∧ (unknown, unknown) ∉ p ∧ (identity, identity) ∉ p

/-- A line without a test: the first character that is no blank is `!`, or there is none ("Lines where the first non-white-space
character is \"!\" are considered comment lines and skipped", tools/src/hfst-pair-test.cc:105-108). -/
def NoTest (l : Str) : Prop := ∃ blanks rest, l = blanks ++ rest ∧ (∀ c ∈ blanks, c = ' ' ∨ c = '\t') ∧ (rest = [] ∨ ∃ r, rest = '!' :: r)

/-- The test cases with a mark, in their order ("specialized comments prefixed with either '!!€' or '!!$'",
tools/src/hfst-pair-test.cc:133-137). -/
def markedCases (mark : Str) (lines : List Str) : List Str := lines.filterMap fun l => caseOf mark (cutLine l)

end Hfst.PairTest
