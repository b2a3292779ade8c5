import Verif.Model.ToolStreams

/-!
# What the tools that read archives are documented to do

Independent of the loops of the model: numbers as texts (tools/src/hfst-head.cc:69-77, hfst-tail.cc:68-76), the pairs
of transducers two archives give (tools/src/hfst-program-options.cc:99-106).
-/
namespace Hfst.Tools

/-- A text of one or more decimal digits (tools/src/hfst-head.cc:75-76, "K must be an integer"). -/
def Digits (ds : List Char) : Prop := ds ≠ [] ∧ ∀ c ∈ ds, c.isDigit = true

/-- The number such a text denotes (tools/src/hfst-head.cc:75-76). -/
def value : List Char → Nat
  | [] => 0
  | c :: cs => (c.toNat - 48) * 10 ^ cs.length + value cs

/-- "The operation is applied pairwise for INFILE1 and INFILE2 [...] If INFILE2 has only one transducer, the operation
is applied for each transducer in INFILE1 keeping the second transducer constant"
(tools/src/hfst-program-options.cc:102-106). -/
def pairsOf {α β : Type} (as : List α) : List β → List (α × β)
  | [b] => as.map fun a => (a, b)
  | bs => as.zip bs

/-- The results up to the first operation that fails (the programs end there, tools/src/hfst-disjunct.cc:200). -/
def leading {γ : Type} : List (Option γ) → List γ
  | some c :: r => c :: leading r
  | _ => []

/-- The transducer the operation gives for a pair, if it does not fail (tools/src/hfst-disjunct.cc:187-209). -/
def result {α β γ : Type} (step : α → β → Option (γ × β)) (p : α × β) : Option γ :=
  (step p.1 p.2).map Prod.fst

/-- The operation may change the second transducer in place (conversion of its format, for example,
tools/src/hfst-disjunct.cc:195), but the changed one gives the same results as the one that was read, whatever it is
paired with. -/
def KeepsSecond {α β γ : Type} (step : α → β → Option (γ × β)) : Prop :=
  ∀ a b c b', step a b = some (c, b') → ∀ a', result step (a', b') = result step (a', b)

end Hfst.Tools
