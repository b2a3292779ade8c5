import Verif.Model.Text
import Verif.Model.ToolStreams

/-!
# hfst-info

Model of tools/src/hfst-info.cc.  Simplified: a version starts with a digit or a full stop or is empty (`strtoul` would skip blanks and a
sign), its numbers are small enough for a `long`, and each of the options -a, -e and -m is given at most once.
-/
namespace Hfst.Info
open Hfst.StdString Hfst.Basic Hfst.Text

/-- `strtoul` in base 10: the value and the rest (called in tools/src/hfst-info.cc:58, 68, 78). -/
def number (s : Str) : Nat × Str := (digitsValue (s.takeWhile isDigit), s.dropWhile isDigit)

/-- `parse_version_string` (tools/src/hfst-info.cc:53-88); `none`: the program ends with an error. -/
def parseVersion (s : Str) : Option Nat :=
  let major := number s
  match major.2 with
  | [] => some (major.1 * 10000 * 10000)
  | c :: s2 =>
    if c ≠ '.' then none
    else
      let minor := number s2
      match minor.2 with
      | [] => some (major.1 * 10000 * 10000 + minor.1 * 10000)
      | d :: s3 =>
        if d ≠ '.' then none
        else
          let patch := number s3
          match patch.2 with
          | [] => some (major.1 * 10000 * 10000 + minor.1 * 10000 + patch.1)
          | _ => none

/-- The back-ends the library is built with (configure.ac:85, 107; the macros tested in tools/src/hfst-info.cc:215-249). -/
structure Build where
  sfst : Bool
  foma : Bool
  xfsm : Bool
  openfst : Bool

/-- `HFST_LONGVERSION` (configure.ac:59). -/
def longVersion : Nat := 300170001

/-- The options (tools/src/hfst-info.cc:127-163). -/
structure Options where
  atLeast : Option Str := none
  exact : Option Str := none
  max : Option Str := none
  features : List Str := []

/-- The test of one feature (tools/src/hfst-info.cc:215-255): whether the program goes on.  The macros for foma, xfsm and OpenFst are tested
without the `!` that the one for SFST has. -/
def featureStep (b : Build) (f : Str) : Bool :=
  if f = "sfst".toList ∨ f = "SFST".toList ∨ f = "HAVE_SFST".toList then b.sfst
  else if f = "foma".toList ∨ f = "FOMA".toList ∨ f = "HAVE_FOMA".toList then !b.foma
  else if f = "xfsm".toList ∨ f = "XFSM".toList ∨ f = "HAVE_XFSM".toList then !b.xfsm
  else if f = "openfst".toList ∨ f = "OPENFST".toList ∨ f = "HAVE_OPENFST".toList then !b.openfst
  else if f = "icu".toList ∨ f = "USE_ICU_UNICODE".toList then true
  else false

/-- An option with a version: not given, wrong, or its number (tools/src/hfst-info.cc:48-50, 146-154). -/
def readVersion : Option Str → Option (Option Nat)
  | none => some none
  | some s => (parseVersion s).map some

/-- The tool (tools/src/hfst-info.cc:176-286). -/
def info (b : Build) (o : Options) : Tools.Ending :=
  match readVersion o.atLeast, readVersion o.exact, readVersion o.max with
  | some a, some e, some m =>
    if ∃ v, a = some v ∧ longVersion < v then .failure
    else if ∃ v, e = some v ∧ longVersion ≠ v then .failure
    else if ∃ v, m = some v ∧ longVersion < v then .failure
    else if o.features.all (featureStep b) then .success
    else .failure
  | _, _, _ => .failure

end Hfst.Info
