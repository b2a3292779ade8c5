import Verif.Model.EditMetadata

/-!
# What hfst-edit-metadata is for

The help text (tools/src/hfst-edit-metadata.cc:74-83): "add or replace property ANAME with VALUE", "print the current PNAME", "truncate added
properties' lengths to LEN"; "If PNAME is omitted, all values are printed".
-/
namespace Hfst.EditMeta
open Hfst.StdString Hfst.Basic

/-- The value asked for last for a name (tools/src/hfst-edit-metadata.cc:74). -/
def asked (adds : List (Str × Str)) (k : Str) : Option Str := (adds.reverse.find? fun p => p.1 = k).map (·.2)

/-- The options `-a NAME=VALUE` for these names and values (tools/src/hfst-edit-metadata.cc:74). -/
def addOptions (adds : List (Str × Str)) : List Opt := adds.map fun p => .add (p.1 ++ '=' :: p.2)

/-- The run writes each transducer, in its order and with its content, with the properties asked for (`cut` is what is left of a value),
and the others as they were (tools/src/hfst-edit-metadata.cc:74-77). -/
def Adds {α : Type} (cut : Str → Str) (adds : List (Str × Str)) (gs : List (α × Props)) (r : Tools.Run (Out α)) : Prop :=
  ∃ change : Props → Props, r = ⟨gs.map fun g => .wrote g.1 (change g.2), .success⟩ ∧
    ∀ props k, mapGet (change props) k = match asked adds k with
      | some v => some (cut v)
      | none => mapGet props k

end Hfst.EditMeta
