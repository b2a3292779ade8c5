import Verif.Model.Text

/-!
# What hfst-info is for

The help text (tools/src/hfst-info.cc:98-113): "require at least MVER version of HFST", "require exactly EVER version", "require at most
UVER version", "require named FEAT support from HFST"; "MVER, EVER or UVER version vectors must be composed of one to three full stop
separated runs of digits".
-/
namespace Hfst.Info
open Hfst.StdString Hfst.Basic Hfst.Text

/-- A version: three numbers (tools/src/hfst-info.cc:109). -/
structure Version where
  major : Nat
  minor : Nat
  patch : Nat
  deriving DecidableEq

/-- The version of this library (configure.ac:34). -/
def current : Version := ⟨3, 17, 1⟩

/-- The earlier version, or the same: the first number that differs counts (tools/src/hfst-info.cc:98-103). -/
def Version.NotAfter (v w : Version) : Prop :=
  v.major < w.major ∨ v.major = w.major ∧ (v.minor < w.minor ∨ v.minor = w.minor ∧ v.patch ≤ w.patch)

/-- A run of digits (tools/src/hfst-info.cc:110). -/
def Digits (t : Str) : Prop := t ≠ [] ∧ ∀ c ∈ t, isDigit c = true

/-- One to three runs of digits; the numbers that are not given are 0 (tools/src/hfst-info.cc:109-110). -/
inductive Spells : Str → Version → Prop
  | one (a : Str) : Digits a → Spells a ⟨digitsValue a, 0, 0⟩
  | two (a b : Str) : Digits a → Digits b → Spells (a ++ '.' :: b) ⟨digitsValue a, digitsValue b, 0⟩
  | three (a b c : Str) : Digits a → Digits b → Digits c →
      Spells (a ++ '.' :: b ++ '.' :: c) ⟨digitsValue a, digitsValue b, digitsValue c⟩

/-- The numbers after the first one have at most four digits (tools/src/hfst-info.cc:73, 83 multiply by 10000). -/
def Version.Small (v : Version) : Prop := v.minor < 10000 ∧ v.patch < 10000

end Hfst.Info
