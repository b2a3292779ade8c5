import Verif.Model.XfstStack

/-!
# What the stack commands of hfst-xfst promise

The definitions are seen only through the commands: what `push defined NAME` puts on the stack, and what the regular expression `NAME`
puts there.
-/
namespace Hfst.Xfst
open Hfst.StdString

variable {α : Type}

/-- `push defined NAME` puts the value on the stack (libhfst/src/parsers/xfst_help_message.cc:364: "adds a defined FSM
to top of stack"). -/
def Pushes (s : Session α) (n : Str) (v : α) : Prop := ∃ name, (push n s).stack = ⟨name, v⟩ :: s.stack

/-- The regular expression `NAME` puts the value on the stack: the name is looked up in the definitions (the commands
`regex NAME;` of libhfst/src/parsers/XfstCompiler.cc:4080-4099). -/
def Reads (s : Session α) (n : Str) (v : α) : Prop :=
  ∃ name, (readRegex (fun definitions => definitions n) s).stack = ⟨name, v⟩ :: s.stack

/-- A session after commands, from the start (a session starts with an empty stack and without definitions,
libhfst/src/parsers/XfstCompiler.cc:208-260). -/
def run (cs : List (Command α)) : Session α := cs.foldl step {}

/-- No command reads definitions from a file (`load defined`, libhfst/src/parsers/xfst_help_message.cc:313). -/
def NoLoad (cs : List (Command α)) : Prop := ∀ file, Command.loadDefined file ∉ cs

/-- The second list is the first one with some elements moved from the start to the end ("rotates stack",
libhfst/src/parsers/xfst_help_message.cc:376). -/
def Rotation (a b : List (Net α)) : Prop := ∃ x y, a = x ++ y ∧ b = y ++ x

/-- The values on the stack (`stack_` of libhfst/src/parsers/XfstCompiler.h:727). -/
def values (s : Session α) : List α := s.stack.map Net.value

end Hfst.Xfst
