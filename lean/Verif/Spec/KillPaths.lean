import Verif.Model.KillPaths
import Verif.Spec.Reweight
import Verif.Spec.PairTest

/-!
# What hfst-kill-paths is for

The help text (tools/src/hfst-kill-paths.cc:65-83): "Kill all paths with specific symbols".  Accepting paths with the symbols and
weights of their transitions are those of `Reweight.Takes` (Spec/Reweight.lean); `PairTest.Run` (Spec/PairTest.lean) says which strings
a transducer accepts if the identity symbol stands for the symbols outside its alphabet.
-/
namespace Hfst.KillPaths
open Hfst.StdString Hfst.Basic

/-- The symbol is on none of the transitions of the path, neither as input nor as output ("remove arcs with input or output symbol SYM
or both", tools/src/hfst-kill-paths.cc:73-74). -/
def Free (x : Sym) (path : List (Sym × Sym × Int)) : Prop := ∀ p ∈ path, p.1 ≠ x ∧ p.2.1 ≠ x

/-- The file asks for the symbol: it is the text of a line that is neither empty nor a comment ("Comment lines starting with # and
empty lines are ignored", tools/src/hfst-kill-paths.cc:80-82). -/
def Asks (lines : List Str) (x : Sym) : Prop :=
  ∃ l ∈ lines, x ≠ [] ∧ (∀ rest, x ≠ '#' :: rest) ∧ '\n' ∉ x ∧ (l = x ∨ l = x ++ ['\n'])

/-- The lines are as they are read from a file: a line is not empty, and only its last character can be a newline
(`hfst_getline`, called in tools/src/hfst-kill-paths.cc:237). -/
def FromFile (lines : List Str) : Prop := ∀ l ∈ lines, ∃ text, '\n' ∉ text ∧ ((l = text ∧ text ≠ []) ∨ l = text ++ ['\n'])

end Hfst.KillPaths
