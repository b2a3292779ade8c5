import Verif.Model.Tokenizer

/-!
# UTF-8 helpers outside the tokenizer
-/
namespace Hfst.Utf8
open Hfst.Tok

/-- `nByte_utf8` (libhfst/src/implementations/optimized-lookup/ospell.cc:13-28).  The same tests are made in
`string_to_utf8` (tools/src/hfst-lookup.cc:1003-1040) and `TokenIOStream::read_utf8_char`
(tools/src/hfst-proc/tokenizer.cc:108-133), where 0 is an error. -/
def nByteUtf8 (c : Byte) : Nat :=
  if c ≤ 127 then 1
  else if c &&& (128 + 64 + 32 + 16) = 128 + 64 + 32 + 16 then 4
  else if c &&& (128 + 64 + 32) = 128 + 64 + 32 then 3
  else if c &&& (128 + 64) = 128 + 64 then 2
  else 0

/-- What `string_to_utf8` can end in. -/
inductive SplitResult where
  | undefined
  | error
  | parts (l : List Bytes)
  deriving DecidableEq

/-- `string_to_utf8` (tools/src/hfst-lookup.cc:1003-1040; the same function is in tools/src/hfst-flookup.cc:989
and tools/src/hfst-grep.cc:449) on a C string.  `hfst_strndup` stops at the end of the string, but the pointer
then moves behind it: undefined behaviour. -/
def stringToUtf8 (s : Bytes) : SplitResult :=
  match s with
  | [] => .parts []
  | c :: rest =>
    match nByteUtf8 c with
    | 0 => .error
    | n + 1 =>
      if rest.length < n then .undefined
      else match stringToUtf8 (rest.drop n) with
        | .parts l => .parts ((c :: rest.take n) :: l)
        | r => r
termination_by s.length
decreasing_by
  simp only [List.length_cons, List.length_drop]; omega

/-- `sfst_utf8::int2utf8` (libhfst/src/parsers/SfstUtf8.cc:48-88); `none` is the null pointer.  The bytes up to
the terminating NUL; for `sym = 0` the C string is empty, which the caller sees as such. -/
def int2utf8 (sym : Nat) : Option Bytes :=
  if sym < 128 then some [UInt8.ofNat sym]
  else if sym < 2048 then
    some [UInt8.ofNat ((sym >>> 6) ||| 192), UInt8.ofNat ((sym &&& 63) ||| 128)]
  else if sym < 65536 then
    some [UInt8.ofNat ((sym >>> 12) ||| 224), UInt8.ofNat (((sym >>> 6) &&& 63) ||| 128),
      UInt8.ofNat ((sym &&& 63) ||| 128)]
  else if sym < 2097152 then
    some [UInt8.ofNat ((sym >>> 18) ||| 240), UInt8.ofNat (((sym >>> 12) &&& 63) ||| 128),
      UInt8.ofNat (((sym >>> 6) &&& 63) ||| 128), UInt8.ofNat ((sym &&& 63) ||| 128)]
  else none

/-- The loop reading continuation bytes in `sfst_utf8::utf8toint` (libhfst/src/parsers/SfstUtf8.cc:129-141):
`none` is the `return 0` for a byte that is no continuation byte (among them the terminating NUL). -/
def contBytes : Nat → Nat → Bytes → Option (Nat × Bytes)
  | 0, result, s => some (result, s)
  | _ + 1, _, [] => none
  | n + 1, result, c :: s =>
    if c < 192 ∧ c ≥ 128 then contBytes n ((result <<< 6) ||| (c &&& 63).toNat) s else none

/-- `sfst_utf8::utf8toint(char**)` (libhfst/src/parsers/SfstUtf8.cc:96-145): value and rest of the string;
`none` is the error return 0.  On the empty string the NUL itself is the character (and the pointer would move
behind it): not modelled, the callers test for the end first. -/
def utf8toint : Bytes → Option (Nat × Bytes)
  | [] => none
  | c :: s =>
    if c ≥ 240 then contBytes 3 (c &&& 7).toNat s
    else if c ≥ 224 then contBytes 2 (c &&& 15).toNat s
    else if c ≥ 192 then contBytes 1 (c &&& 31).toNat s
    else if c < 128 then some (c.toNat, s)
    else none

/-- `codepoint_to_utf8` (libhfst/src/parsers/pmatch_utils.cc:1215-1270); `none` is the empty string returned
for a number that is no character.  For `cp = 0` the code returns the empty string as well (the C string is
empty); the model keeps the byte 0.  The
test `codepoint - 0xd800u < 0x800` is in 32 bit unsigned arithmetic. -/
def codepointToUtf8 (cp : Nat) : Option Bytes :=
  if cp < 0x80 then some [UInt8.ofNat cp]
  else if cp < 0x800 then some [UInt8.ofNat (192 + cp / 64), UInt8.ofNat (128 + cp % 64)]
  else if (cp + 2 ^ 32 - 0xd800) % 2 ^ 32 < 0x800 then none
  else if cp < 0x10000 then
    some [UInt8.ofNat (224 + cp / 4096), UInt8.ofNat (128 + cp / 64 % 64), UInt8.ofNat (128 + cp % 64)]
  else if cp < 0x110000 then
    some [UInt8.ofNat (240 + cp / 262144), UInt8.ofNat (128 + cp / 4096 % 64),
      UInt8.ofNat (128 + cp / 64 % 64), UInt8.ofNat (128 + cp % 64)]
  else none

end Hfst.Utf8
