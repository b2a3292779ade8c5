import Verif.Props.ToolPairs
import Verif.Model.FlagHarmonize

/-!
# C91: the second transducer does not stay constant
-/
namespace Hfst.Tools
open Hfst.Basic Hfst.FlagHarm

/-- A transducer with one flag on its only transition. -/
def flagged : Graph :=
  { states := [[⟨1, "@P.F.V@".toList, "@P.F.V@".toList, 0⟩], []], finals := [(1, 0)],
    alphabet := [epsilon, unknown, identity, "@P.F.V@".toList] }

/-- **C91 is violated by hfst-concatenate -F**: "keeping the second transducer constant".  If the second archive has
one transducer, its flags get the suffix `_2` again in every round.  Here the same transducer stands twice in the first
archive; the tool writes two results, and only the second has the flag `@P.F_2_2.V@`, whatever the concatenation does,
as long as the result has the symbols of its two arguments. -/
theorem C91_constant_violated (concat : Graph → Graph → Graph)
    (hc : ∀ g h x, x ∈ (concat g h).alphabet ↔ x ∈ g.alphabet ∨ x ∈ h.alphabet) :
    ∃ c1 c2, binaryTool (concatenateStep concat) [flagged, flagged] [flagged] = ⟨[c1, c2], .success⟩ ∧
      "@P.F_2_2.V@".toList ∈ c2.alphabet ∧ "@P.F_2_2.V@".toList ∉ c1.alphabet := by
  have h1 : hasFlags flagged = true := by decide +kernel
  have h2 : hasFlags (rename "_2".toList flagged) = true := by decide +kernel
  refine ⟨concat (rename "_1".toList flagged) (rename "_2".toList flagged),
    concat (rename "_1".toList flagged) (rename "_2".toList (rename "_2".toList flagged)), ?_, ?_, ?_⟩
  · simp only [binaryTool, pairLoop, concatenateStep, harmonizeFlags, h1, h2]
    rfl
  · rw [hc]
    right
    decide +kernel
  · rw [hc]
    decide +kernel

/-- A concatenation that meets the hypothesis. -/
example : ∃ concat : Graph → Graph → Graph,
    ∀ g h x, x ∈ (concat g h).alphabet ↔ x ∈ g.alphabet ∨ x ∈ h.alphabet :=
  ⟨fun g h => { g with alphabet := g.alphabet ++ h.alphabet }, fun g h x => List.mem_append⟩

end Hfst.Tools
