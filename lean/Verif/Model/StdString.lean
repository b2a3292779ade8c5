/-!
# `std::string` operations used by the modelled code

A `std::string` is a list of `Char`; each `Char` stands for one C++ `char`.
`std::string::npos` is `none`.  Sizes are natural numbers (a real string is
shorter than 2^63); unsigned subtraction wraps as in C++ (`usub`).
-/
namespace Hfst

/-- Model of `std::string` (no repo file; C++ standard library). -/
abbrev Str := List Char

namespace StdString

/-- Unsigned 64 bit subtraction as done on `size_t` (C++ standard; used e.g. in
libhfst/src/HfstFlagDiacritics.cc:100). -/
def usub (a b : Nat) : Nat := if b ≤ a then a - b else a + 2 ^ 64 - b

/-- `s.find(c, pos)` (C++ standard; used e.g. in libhfst/src/HfstFlagDiacritics.cc:94). -/
def find (s : Str) (c : Char) (pos : Nat) : Option Nat :=
  ((s.drop pos).findIdx? (fun d => d == c)).map (· + pos)

/-- `s.find_last_of(c)` (C++ standard; used in libhfst/src/HfstFlagDiacritics.cc:72). -/
def findLast (s : Str) (c : Char) : Option Nat :=
  (s.reverse.findIdx? (fun d => d == c)).map (fun i => s.length - 1 - i)

/-- `s.substr(pos, len)`; `none` is the exception `std::out_of_range` (C++ standard; used
e.g. in libhfst/src/HfstFlagDiacritics.cc:100). -/
def substr (s : Str) (pos len : Nat) : Option Str :=
  if pos ≤ s.length then some ((s.drop pos).take len) else none

/-- `s.at(i)`; `none` is the exception `std::out_of_range` (C++ standard; used in
libhfst/src/HfstFlagDiacritics.cc:48). -/
def charAt (s : Str) (i : Nat) : Option Char := s[i]?

/-- `npos + 1` is 0 in unsigned arithmetic (used in libhfst/src/HfstFlagDiacritics.cc:106). -/
def succPos : Option Nat → Nat
  | none => 0
  | some p => p + 1

end StdString
end Hfst
