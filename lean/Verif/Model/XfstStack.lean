import Verif.Model.Graph

/-!
# The stack and the definitions of hfst-xfst

Model of the commands in libhfst/src/parsers/XfstCompiler.cc that work on the stack of networks and on the definitions.

Simplifications: a network is a value of any type together with its name; the pointers in the stack and in the definitions always have
one owner, so that values are enough.  Networks in the optimized lookup format, messages and the variables `assert` and `quit-on-fail`
are left out.  The files are those of a session with the same format, so that nothing is converted when they are read.
-/
namespace Hfst.Xfst
open Hfst.StdString Hfst.Basic

/-- A network and its name (`HfstTransducer::get_name`, used in libhfst/src/parsers/XfstCompiler.cc:1903). -/
structure Net (α : Type) where
  name : Str
  value : α

/-- The members `stack_` (the top first), `definitions_`, the definitions of `xre_`, and whether the variable `name-nets` is on
(used in libhfst/src/parsers/XfstCompiler.cc:1356-1381; the default of `name-nets` is off, lines 243 and 302). -/
structure Session (α : Type) where
  stack : List (Net α) := []
  defs : List (Str × Net α) := []
  regex : List (Str × Net α) := []
  nameNets : Bool := false

variable {α : Type}

/-- `clear` (libhfst/src/parsers/XfstCompiler.cc:1794-1808). -/
def clear (s : Session α) : Session α := { s with stack := [] }

/-- `pop` (libhfst/src/parsers/XfstCompiler.cc:1810-1824). -/
def pop (s : Session α) : Session α :=
  match s.stack with
  | [] => s
  | _ :: ts => { s with stack := ts }

/-- `push(name)` (libhfst/src/parsers/XfstCompiler.cc:1826-1839). -/
def push (n : Str) (s : Session α) : Session α :=
  match mapGet s.defs n with
  | none => s
  | some t => { s with stack := t :: s.stack }

/-- The first loop of `turn`: from the stack to a queue (libhfst/src/parsers/XfstCompiler.cc:1855-1860). -/
def toQueue : List (Net α) → List (Net α) → List (Net α)
  | [], q => q
  | t :: ts, q => toQueue ts (q ++ [t])

/-- The second loop of `turn`: from the queue to the stack (libhfst/src/parsers/XfstCompiler.cc:1861-1865). -/
def fromQueue : List (Net α) → List (Net α) → List (Net α)
  | [], st => st
  | t :: q, st => fromQueue q (t :: st)

/-- `turn` (libhfst/src/parsers/XfstCompiler.cc:1852-1867). -/
def turn (s : Session α) : Session α := { s with stack := fromQueue (toQueue s.stack []) [] }

/-- The loop from one stack to another in `rotate` and `write_stack` (libhfst/src/parsers/XfstCompiler.cc:1876-1881, 3991-3996). -/
def toStack : List (Net α) → List (Net α) → List (Net α)
  | [], tmp => tmp
  | t :: ts, tmp => toStack ts (t :: tmp)

/-- `rotate` (libhfst/src/parsers/XfstCompiler.cc:1868-1885). -/
def rotate (s : Session α) : Session α :=
  match s.stack with
  | [] => s
  | st => { s with stack := toStack st [] }

/-- `define(name, transducer)` (libhfst/src/parsers/XfstCompiler.cc:1356-1382); `xre_.define` copies the network before it is named
(libhfst/src/parsers/XreCompiler.cc:187-192). -/
def define (n : Str) (t : Net α) (s : Session α) : Session α :=
  { s with regex := mapPut s.regex n t, defs := mapPut s.defs n (if s.nameNets then { t with name := n } else t) }

/-- `define(name)`: the top of the stack is taken (libhfst/src/parsers/XfstCompiler.cc:1384-1393). -/
def defineTop (n : Str) (s : Session α) : Session α :=
  match s.stack with
  | [] => s
  | t :: ts => define n t { s with stack := ts }

/-- The names a regular expression can use (libhfst/src/parsers/XreCompiler.cc:205-211). -/
def known (s : Session α) (n : Str) : Option α := (mapGet s.regex n).map Net.value

/-- `define(name, xre)` (libhfst/src/parsers/XfstCompiler.cc:1395-1442).  `compile` is the compilation of the expression, which depends
on the definitions; `none`: it fails, and nothing is defined. -/
def defineRegex (n : Str) (compile : (Str → Option α) → Option α) (s : Session α) : Session α :=
  match compile (known s) with
  | none => s
  | some v => define n ⟨[], v⟩ s

/-- `read_regex` (libhfst/src/parsers/XfstCompiler.cc:4080-4099). -/
def readRegex (compile : (Str → Option α) → Option α) (s : Session α) : Session α :=
  match compile (known s) with
  | none => s
  | some v => { s with stack := ⟨[], v⟩ :: s.stack }

/-- One name of `undefine` (libhfst/src/parsers/XfstCompiler.cc:1661-1667). -/
def undefineOne (s : Session α) (n : Str) : Session α :=
  match mapGet s.defs n with
  | none => s
  | some _ => { s with defs := mapErase s.defs n, regex := mapErase s.regex n }

/-- `undefine` (libhfst/src/parsers/XfstCompiler.cc:1654-1672). -/
def undefine (ns : List Str) (s : Session α) : Session α := ns.foldl undefineOne s

/-- `load_stack` (libhfst/src/parsers/XfstCompiler.cc:2017-2066). -/
def loadStack (file : List (Net α)) (s : Session α) : Session α :=
  file.foldl (fun s t => { s with stack := t :: s.stack }) s

/-- `add_loaded_definition` (libhfst/src/parsers/XfstCompiler.cc:1900-1923). -/
def addLoaded (s : Session α) (t : Net α) : Session α :=
  if t.name.isEmpty then s else { s with defs := mapPut s.defs t.name t }

/-- `load_definitions` (libhfst/src/parsers/XfstCompiler.cc:1691-1696, 2017-2059). -/
def loadDefined (file : List (Net α)) (s : Session α) : Session α := file.foldl addLoaded s

/-- The second loop of `write_stack`: the networks written, and the stack (libhfst/src/parsers/XfstCompiler.cc:3998-4003). -/
def writeLoop : List (Net α) → List (Net α) → List (Net α) × List (Net α)
  | [], st => ([], st)
  | t :: tmp, st => let r := writeLoop tmp (t :: st); (t :: r.1, r.2)

/-- `write_stack` (libhfst/src/parsers/XfstCompiler.cc:3975-4006); `none`: no file is written. -/
def writeStack (s : Session α) : Option (List (Net α)) × Session α :=
  match s.stack with
  | [] => (none, s)
  | st => let r := writeLoop (toStack st []) []; (some r.1, { s with stack := r.2 })

/-- `write_definition` (libhfst/src/parsers/XfstCompiler.cc:3907-3926). -/
def writeDefinition (n : Str) (s : Session α) : Option (List (Net α)) :=
  match mapGet s.defs n with
  | none => none
  | some t => some [if s.nameNets then { t with name := n } else t]

/-- `write_definitions` (libhfst/src/parsers/XfstCompiler.cc:3927-3948).  The code goes through the names in alphabetic order. -/
def writeDefinitions (s : Session α) : Option (List (Net α)) :=
  if s.defs.isEmpty then none else some (s.defs.map fun d => { d.2 with name := d.1 })

/-- `apply_unary_operation` (libhfst/src/parsers/XfstCompiler.cc:4239-4307).  `f` is the operation, with `MAYBE_MINIMIZE`; `none`: it
is not available. -/
def unary (f : α → Option α) (s : Session α) : Session α :=
  match s.stack with
  | [] => s
  | t :: ts =>
    match f t.value with
    | some v => { s with stack := { t with value := v } :: ts }
    | none => { s with stack := t :: ts }

/-- `apply_binary_operation` (libhfst/src/parsers/XfstCompiler.cc:4309-4363).  `op` is the operation, with `MAYBE_MINIMIZE`; `none`: a
cross product of transducers that are not automata. -/
def binary (op : α → α → Option α) (s : Session α) : Session α :=
  match s.stack with
  | t :: u :: ts =>
    match op t.value u.value with
    | some v => { s with stack := { t with value := v } :: ts }
    | none => { s with stack := t :: u :: ts }
  | _ => s

/-- The loop of `apply_binary_operation_iteratively` (libhfst/src/parsers/XfstCompiler.cc:4381-4464): the result so far, and the rest
of the stack.  `same`: the types are the same; `op`: the operation, `none` if a composition throws; `optimize` is
`MAYBE_MINIMIZE`. -/
def iterLoop (same : α → α → Bool) (op : α → α → Option α) (optimize : α → α) : Net α → List (Net α) → List (Net α)
  | r, [] => [{ r with value := optimize r.value }]
  | r, t :: ts =>
    if same t.value r.value then
      match op r.value t.value with
      | none => t :: ts
      | some v => iterLoop same op optimize { r with value := v } ts
    else { r with value := optimize r.value } :: t :: ts

/-- `apply_binary_operation_iteratively` (libhfst/src/parsers/XfstCompiler.cc:4365-4466). -/
def iterate (same : α → α → Bool) (op : α → α → Option α) (optimize : α → α) (s : Session α) : Session α :=
  match s.stack with
  | t :: u :: ts => { s with stack := iterLoop same op optimize t (u :: ts) }
  | _ => s

/-- The loop of `test_operation` for `test overlap` (libhfst/src/parsers/XfstCompiler.cc:2505-2519). -/
def overlapLoop (inter : α → α → α) (empty : α → Bool) : α → List (Net α) → Bool
  | _, [] => true
  | t, u :: ts => if empty (inter t u.value) then false else overlapLoop inter empty (inter t u.value) ts

/-- The loop of `test_operation` for `test sublanguage` (libhfst/src/parsers/XfstCompiler.cc:2505-2533). -/
def sublanguageLoop (inter : α → α → α) (equal : α → α → Bool) : α → List (Net α) → Bool
  | _, [] => true
  | t, u :: ts => if !equal (inter t u.value) t then false else sublanguageLoop inter equal u.value ts

/-- `test_overlap` (libhfst/src/parsers/XfstCompiler.cc:2487-2550); `none`: there are not enough networks. -/
def testOverlap (inter : α → α → α) (empty : α → Bool) (s : Session α) : Option Bool :=
  match s.stack with
  | t :: u :: ts => some (overlapLoop inter empty t.value (u :: ts))
  | _ => none

/-- `test_sublanguage` (libhfst/src/parsers/XfstCompiler.cc:2487-2555). -/
def testSublanguage (inter : α → α → α) (equal : α → α → Bool) (s : Session α) : Option Bool :=
  match s.stack with
  | t :: u :: ts => some (sublanguageLoop inter equal t.value (u :: ts))
  | _ => none

/-- The commands that change the session (libhfst/src/parsers/xfst-parser.yy:240-300 and the rules of the other commands). -/
inductive Command (α : Type)
  | clear | pop | turn | rotate
  | push (n : Str)
  | defineTop (n : Str)
  | defineRegex (n : Str) (compile : (Str → Option α) → Option α)
  | readRegex (compile : (Str → Option α) → Option α)
  | undefine (ns : List Str)
  | loadStack (file : List (Net α))
  | loadDefined (file : List (Net α))
  | unary (f : α → Option α)
  | binary (op : α → α → Option α)
  | iterate (same : α → α → Bool) (op : α → α → Option α) (optimize : α → α)
  | nameNets (on : Bool)

/-- A command (the calls in libhfst/src/parsers/xfst-parser.yy; `set name-nets` sets the variable). -/
def step (s : Session α) : Command α → Session α
  | .clear => clear s
  | .pop => pop s
  | .turn => turn s
  | .rotate => rotate s
  | .push n => push n s
  | .defineTop n => defineTop n s
  | .defineRegex n c => defineRegex n c s
  | .readRegex c => readRegex c s
  | .undefine ns => undefine ns s
  | .loadStack f => loadStack f s
  | .loadDefined f => loadDefined f s
  | .unary f => unary f s
  | .binary op => binary op s
  | .iterate a b c => iterate a b c s
  | .nameNets on => { s with nameNets := on }

end Hfst.Xfst
