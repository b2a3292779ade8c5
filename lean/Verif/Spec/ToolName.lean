import Verif.Model.ToolName

/-!
# What hfst-name is for

The help text (tools/src/hfst-name.cc:66-69): "Name the transducer NAME", "Only print the current name", "Truncate name length to LEN".
-/
namespace Hfst.ToolName
open Hfst.Basic

/-- The property with the name, `name` (libhfst/src/HfstTransducer.cc:1551). -/
def nameProperty : Text := "name".toUTF8.toList

/-- The run writes each transducer, in its order and with its content, under the name and with its other properties
(tools/src/hfst-name.cc:67). -/
def Names {α : Type} (name : Text) (gs : List (α × Props)) (r : Tools.Run (Out α)) : Prop :=
  ∃ change : Props → Props, r = ⟨gs.map fun g => .wrote g.1 (change g.2), .success⟩ ∧
    ∀ props k, mapGet (change props) k = if k = nameProperty then some name else mapGet props k

/-- The current name; no name is the empty one (tools/src/hfst-name.cc:68). -/
def current (props : Props) : Text := (mapGet props nameProperty).getD []

end Hfst.ToolName
