import Verif.Model.Graph
import Verif.Model.ToolStreams

/-!
# hfst-name

Model of tools/src/hfst-name.cc.  A text is the list of its bytes.  Simplified: the number of -t is one that `strtoul` reads; warnings and
the messages of --verbose are left out.
-/
namespace Hfst.ToolName
open Hfst.Basic

abbrev Text := List UInt8

/-- The properties of a transducer (`props`, libhfst/src/HfstTransducer.cc:1559). -/
abbrev Props := List (Text × Text)

/-- The name of the property (libhfst/src/HfstTransducer.cc:1546). -/
def nameKey : Text := [110, 97, 109, 101]

/-- The options in the order in which they are given (tools/src/hfst-name.cc:112-122). -/
inductive Opt
  | name (arg : Text)
  | print
  | truncate (n : Nat)

/-- The variables that the options set (tools/src/hfst-name.cc:53-56); `none`: -n was not given. -/
structure Settings where
  name : Option Text := none
  print : Bool := false
  truncate : Nat := 0

/-- The options (tools/src/hfst-name.cc:112-122). -/
def readOpts (os : List Opt) : Settings :=
  os.foldl (fun s o => match o with
    | .name arg => { s with name := some arg }
    | .print => { s with print := true }
    | .truncate n => { s with truncate := n }) {}

/-- What is put out: a transducer into the archive, a name in quotes, or the line between two names
(tools/src/hfst-name.cc:143, 166, 169). -/
inductive Out (α : Type)
  | wrote (content : α) (props : Props)
  | quoted (name : Text)
  | line
  deriving DecidableEq

/-- The name that is set (tools/src/hfst-name.cc:158-165). -/
def newName (s : Settings) : Text :=
  if s.truncate > 0 then (s.name.getD []).take s.truncate else s.name.getD []

/-- The loop over the archive (tools/src/hfst-name.cc:138-170) with `set_name` and `get_name` (libhfst/src/HfstTransducer.cc:1543-1577);
`utf8` tells which texts `check_utf8_correctness` lets through, and its exception is not caught.  `first`: no transducer has been read. -/
def loop {α : Type} (utf8 : Text → Bool) (s : Settings) (first : Bool) : List (α × Props) → Tools.Run (Out α)
  | [] => ⟨[], .success⟩
  | g :: gs =>
    if s.print then
      let r := Tools.Run.after (.quoted ((mapGet g.2 nameKey).getD [])) (loop utf8 s false gs)
      if first then r else Tools.Run.after .line r
    else if utf8 (newName s) then Tools.Run.after (.wrote g.1 (mapPut g.2 nameKey (newName s))) (loop utf8 s false gs)
    else ⟨[], .crash⟩

/-- `main` (tools/src/hfst-name.cc:178-232) for an archive that can be read. -/
def run {α : Type} (utf8 : Text → Bool) (os : List Opt) (gs : List (α × Props)) : Tools.Run (Out α) :=
  let s := readOpts os
  if s.print = false ∧ s.name = none then ⟨[], .failure⟩ else loop utf8 s true gs

end Hfst.ToolName
