import Verif.Model.Graph
import Verif.Model.ToolStreams

/-!
# hfst-repeat

Model of tools/src/hfst-repeat.cc and of `hfst_strtonumber` (tools/src/hfst-commandline.cc:373-409).

Simplifications: `strtod` is a function of the C library: an argument is given by the number that `strtod` makes of it, and a finite number
by the greatest integer below it, since nothing else of it is used.  The functions of the library are parameters.  Messages, names and
formulas are left out.
-/
namespace Hfst.Repeat
open Hfst.StdString Hfst.Basic

/-- The numbers that `strtod` can give (called in tools/src/hfst-commandline.cc:382). -/
inductive Num
  | nan
  | posInf
  | negInf
  | finite (floor : Int)
  deriving DecidableEq

/-- `INT_MAX` (tools/src/hfst-commandline.cc:391). -/
def intMax : Int := 2147483647

/-- `INT_MIN` (tools/src/hfst-commandline.cc:398). -/
def intMin : Int := -2147483648

/-- `hfst_strtonumber` (tools/src/hfst-commandline.cc:373-409): the value and whether it is infinite.  `none`: `floor` of a number that is
not a number is converted to `int`, which has undefined behaviour (line 402). -/
def strToNumber : Num → Option (Int × Bool)
  | .nan => none
  | .posInf => some (0, true)
  | .negInf => some (1, true)
  | .finite f => if f > intMax then some (intMax, false) else if f < intMin then some (intMin, false) else some (f, false)

/-- An `int` assigned to an `unsigned long` of 64 bits (tools/src/hfst-repeat.cc:117, 120). -/
def toULong (i : Int) : Nat := (i % 18446744073709551616).toNat

/-- An `unsigned long` given to a parameter of type `unsigned int` (tools/src/hfst-repeat.cc:199, 226). -/
def toUInt (n : Nat) : Nat := n % 4294967296

/-- The functions of `HfstTransducer` that the tool calls (tools/src/hfst-repeat.cc:199, 220, 226). -/
structure Library (T : Type) where
  star : T → T
  nPlus : Nat → T → T
  nToK : Nat → Nat → T → T

/-- One of the options: not given, given with an argument that is not a number (`some none`), or given with a number
(tools/src/hfst-repeat.cc:115-121). -/
abbrev Arg := Option (Option Num)

/-- The variables `at_least` and `from_infinity` or `at_most` and `to_infinity` after the options are read, and how the program ends if
it does (tools/src/hfst-repeat.cc:54-57, 116-121). -/
def readArg (start : Nat × Bool) : Arg → (Nat × Bool) ⊕ Tools.Ending
  | none => .inl start
  | some none => .inr .failure
  | some (some n) =>
    match strToNumber n with
    | none => .inr .undefined
    | some (v, inf) => .inl (toULong v, inf)

/-- The repetition of one transducer (tools/src/hfst-repeat.cc:197-248); `none`: the program ends with an error. -/
def repeatOne {T : Type} (L : Library T) (least most : Nat × Bool) (g : T) : Option T :=
  if ¬ least.2 ∧ ¬ most.2 then some (L.nToK (toUInt least.1) (toUInt most.1) g)
  else if least.2 ∧ most.2 then some (L.star g)
  else if ¬ least.2 ∧ most.2 then some (L.nPlus (toUInt least.1) g)
  else none

/-- The loop over the transducers (tools/src/hfst-repeat.cc:148-251). -/
def repeatLoop {T : Type} (L : Library T) (least most : Nat × Bool) : List T → Tools.Run T
  | [] => ⟨[], .success⟩
  | g :: gs =>
    match repeatOne L least most g with
    | none => ⟨[], .failure⟩
    | some w => Tools.Run.after w (repeatLoop L least most gs)

/-- The tool (tools/src/hfst-repeat.cc:86-255); -f is read before -t. -/
def repeatStream {T : Type} (L : Library T) (from' to' : Arg) (gs : List T) : Tools.Run T :=
  match readArg (0, false) from' with
  | .inr e => ⟨[], e⟩
  | .inl least =>
    match readArg (4294967295, true) to' with
    | .inr e => ⟨[], e⟩
    | .inl most =>
      if least.1 > most.1 then ⟨[], .failure⟩
      else if least.2 ∧ ¬ most.2 then ⟨[], .failure⟩
      else repeatLoop L least most gs

end Hfst.Repeat
