import Verif.Model.Graph
import Verif.Model.ToolStreams

/-!
# hfst-edit-metadata

Model of tools/src/hfst-edit-metadata.cc.  A text is the list of its bytes.  Simplified: the map of the options is gone through in some
order (in the code: that of the names), which decides only what is reported first if several values are refused; warnings are left out.
-/
namespace Hfst.EditMeta
open Hfst.StdString Hfst.Basic

/-- The properties of a transducer (`props`, libhfst/src/HfstTransducer.cc:1559). -/
abbrev Props := List (Str × Str)

/-- The options in the order in which they are given (tools/src/hfst-edit-metadata.cc:103-105). -/
inductive Opt
  | add (arg : Str)
  | print (name : Option Str)
  | truncate (n : Nat)

/-- The variables that the options set (tools/src/hfst-edit-metadata.cc:59-63). -/
structure Settings where
  properties : Props := []
  printAll : Bool := true
  printName : Option Str := none
  truncate : Nat := 0

/-- One option (tools/src/hfst-edit-metadata.cc:121-151); `none`: the program ends with an error. -/
def readOpt (s : Settings) : Opt → Option Settings
  | .add arg =>
    match arg.dropWhile (· ≠ '=') with
    | [] => none
    | _ :: value => some { s with properties := mapPut s.properties (arg.takeWhile (· ≠ '=')) value, printAll := false }
  | .print (some name) => some { s with printName := some name }
  | .print none => some { s with printAll := true }
  | .truncate n => some { s with truncate := n }

/-- All options (tools/src/hfst-edit-metadata.cc:95-152). -/
def readOpts : Settings → List Opt → Option Settings
  | s, [] => some s
  | s, o :: os =>
    match readOpt s o with
    | none => none
    | some s' => readOpts s' os

/-- The loop over the properties (tools/src/hfst-edit-metadata.cc:187-221) with `set_property` (libhfst/src/HfstTransducer.cc:1555-1564);
`utf8` tells which texts `check_utf8_correctness` lets through, and its exception is not caught. -/
def setAll (utf8 : Str → Bool) (truncate : Nat) : Props → Props → Props ⊕ Tools.Ending
  | [], props => .inl props
  | (k, v) :: rest, props =>
    if k = "character-encoding".toList ∧ ¬ (v = "utf-8".toList ∨ v = "UTF-8".toList) then .inr .failure
    else
      let w := if truncate > 0 then v.take truncate else v
      if utf8 w then setAll utf8 truncate rest (mapPut props k w) else .inr .crash

/-- What the tool puts out: a transducer into the archive, or text (tools/src/hfst-edit-metadata.cc:222, 233, 239). -/
inductive Out (α : Type)
  | wrote (content : α) (props : Props)
  | all (props : Props)
  | one (value : Str)
  deriving DecidableEq

/-- One transducer (tools/src/hfst-edit-metadata.cc:185-241).  `toFile`: the option -o is given; the file was closed (lines 274-277) and is
used nevertheless.  An iterator at the end of the map is used without a test (line 240). -/
def editOne {α : Type} (utf8 : Str → Bool) (toFile : Bool) (s : Settings) (g : α × Props) : Out α ⊕ Tools.Ending :=
  if ¬ s.printAll ∧ s.printName = none then
    match setAll utf8 s.truncate s.properties g.2 with
    | .inl props => .inl (.wrote g.1 props)
    | .inr e => .inr e
  else if toFile then .inr .undefined
  else if s.printAll then .inl (.all g.2)
  else
    match mapGet g.2 (s.printName.getD []) with
    | some v => .inl (.one v)
    | none => .inr .undefined

/-- The loop over the transducers (tools/src/hfst-edit-metadata.cc:166-242). -/
def editLoop {α : Type} (utf8 : Str → Bool) (toFile : Bool) (s : Settings) : List (α × Props) → Tools.Run (Out α)
  | [] => ⟨[], .success⟩
  | g :: gs =>
    match editOne utf8 toFile s g with
    | .inr e => ⟨[], e⟩
    | .inl o => Tools.Run.after o (editLoop utf8 toFile s gs)

/-- The tool (tools/src/hfst-edit-metadata.cc:92-291). -/
def edit {α : Type} (utf8 : Str → Bool) (toFile : Bool) (opts : List Opt) (gs : List (α × Props)) : Tools.Run (Out α) :=
  match readOpts {} opts with
  | none => ⟨[], .failure⟩
  | some s => editLoop utf8 toFile s gs

end Hfst.EditMeta
