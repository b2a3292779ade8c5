import Verif.Model.Text
import Verif.Model.Utf8

/-!
# Escapes in lexc, xre, xfst and pmatch sources

Model of the escape handling in libhfst/src/parsers/lexc-utils.cc, xre_utils.cc, xfst-utils.cc and pmatch_utils.cc.  Text
contains no NUL character; where the code writes one into its result the model has the character `nul`.  Warnings
printed by the code are left out.
-/
namespace Hfst.Escapes
open Hfst.StdString Hfst.Basic Hfst.Text

/-! ## lexc -/

/-- `stripPercents` (libhfst/src/parsers/lexc-utils.cc:56-64). -/
def stripPercents (s : Str) : Str :=
  replaceAll (replaceAll (replaceAll s ['%', '%'] "@PERCENT@".toList) ['%'] []) "@PERCENT@".toList ['%']

/-- `addPercents` (libhfst/src/parsers/lexc-utils.cc:66-74). -/
def addPercents (s : Str) : Str :=
  replaceAll (replaceAll (replaceAll s ['%'] ['%', '%']) ['<'] ['%', '<']) ['>'] ['%', '>']

/-- The variables `in_at` and `escaping` (libhfst/src/parsers/lexc-utils.cc:293-294); they are never both true. -/
inductive Mode where
  | normal
  | esc
  | inAt
  deriving DecidableEq

/-- The loop of `strip_percents` (libhfst/src/parsers/lexc-utils.cc:295-390): the characters written and whether the
text ended after an escape character. -/
def lexcGo (zeros : Bool) : Mode → Str → Str × Bool
  | m, [] => ([], m = .esc)
  | .inAt, c :: s =>
    let r := lexcGo zeros (if c = '@' then .normal else .inAt) s
    (c :: r.1, r.2)
  | .esc, c :: s =>
    let r := lexcGo zeros .normal s
    (if c ≠ '0' then c :: r.1 else "@ZERO@".toList ++ r.1, r.2)
  | .normal, c :: s =>
    if c = '%' then lexcGo zeros .esc s
    else if c = '@' then let r := lexcGo zeros .inAt s; (c :: r.1, r.2)
    else if zeros && c = '0' then let r := lexcGo zeros .normal s; ("@0@".toList ++ r.1, r.2)
    else let r := lexcGo zeros .normal s; (c :: r.1, r.2)

/-- `strip_percents(s, do_zeros)` (libhfst/src/parsers/lexc-utils.cc:274-399).  `undefined` if the characters written and
the final NUL do not fit into the buffer allocated at 280-290; `none` is the null pointer. -/
def lexcStrip (zeros : Bool) (s : Str) : Outcome (Option Str) :=
  let r := lexcGo zeros .normal s
  let cap := if zeros then s.length * 3 + 1 else (s.length / 2 + 1) * 6 + 1
  if cap < r.1.length + 1 then .undefined else .ok (if r.2 then none else some r.1)

/-- The second half of `strstrip`: `k` is the number of characters up to and including `*p`; reading before the buffer
(`k = 0`) is undefined (libhfst/src/parsers/lexc-utils.cc:424-429). -/
def stripBack (buf : Str) : Nat → Outcome Str
  | 0 => .undefined
  | k + 1 =>
    match buf[k]? with
    | none => .undefined
    | some c => if isSpace c then stripBack buf k else .ok (buf.take (k + 1))

/-- `strstrip` (libhfst/src/parsers/lexc-utils.cc:401-431, the same code in libhfst/src/parsers/xfst-utils.cc:157-187).
`isspace` is the one of the C locale. -/
def strstrip (s : Str) : Outcome Str :=
  if s = [] then .ok []
  else
    let t := s.dropWhile isSpace
    stripBack t t.length

/-! ## xre -/

/-- The loop of `strip_percents` (libhfst/src/parsers/xre_utils.cc:314-335, the same code in pmatch_utils.cc:331-352). -/
def xreGo : Str → Str
  | [] => []
  | [c] => if c = '%' then [] else [c]
  | c :: d :: s => if c = '%' then d :: xreGo s else c :: xreGo (d :: s)

/-- `strip_percents` (libhfst/src/parsers/xre_utils.cc:308-338); `undefined` if the buffer allocated at 312 is too
small. -/
def xreStrip (s : Str) : Outcome Str :=
  let r := xreGo s
  if s.length + 1 < r.length + 1 then .undefined else .ok r

/-- The characters that `add_percents` escapes (libhfst/src/parsers/xre_utils.cc:347-353). -/
def restricted : List Char := "@- |!:;0\\&?$+*/_(){}[]".toList

/-- `add_percents` (libhfst/src/parsers/xre_utils.cc:340-363); `undefined` if the buffer allocated at 343 is too small. -/
def xreAdd (s : Str) : Outcome Str :=
  let r := s.flatMap fun c => if c ∈ restricted then ['%', c] else [c]
  if s.length * 2 + 1 < r.length + 1 then .undefined else .ok r

/-- The loop of `strip_curly`; `first` is `i == 0` (libhfst/src/parsers/xre_utils.cc:281-303). -/
def curlyGo : Bool → Str → Str
  | _, [] => []
  | first, [c] => if (c = '{' && first) || c = '}' then [] else [c]
  | first, c :: d :: s => if c = '{' && first then d :: curlyGo false s else c :: curlyGo false (d :: s)

/-- `strip_curly` (libhfst/src/parsers/xre_utils.cc:275-306). -/
def stripCurly (s : Str) : Str := curlyGo true s

/-! ## Quoted text -/

/-- The NUL character. -/
def nul : Char := Char.ofNat 0

/-- `get_quoted` and `get_delimited` (libhfst/src/parsers/xre_utils.cc:365-373, pmatch_utils.cc:974-988): the text
between the first left and the last right delimiter; undefined if they are missing or the last stands before the
first. -/
def getDelimited (l r : Char) (s : Str) : Outcome Str :=
  match find s l 0, findLast s r with
  | some a, some b => if a < b then .ok ((s.drop (a + 1)).take (b - (a + 1))) else .undefined
  | _, _ => .undefined

/-- The escapes with a letter that both parsers know (libhfst/src/parsers/xre_utils.cc:415-444, 453-457,
pmatch_utils.cc:1063-1092, 1133-1137). -/
def letterEscape (c : Char) : Option Char :=
  if c = 'a' then some (Char.ofNat 7)
  else if c = 'b' then some (Char.ofNat 8)
  else if c = 'f' then some (Char.ofNat 12)
  else if c = 'n' then some '\n'
  else if c = 'r' then some '\r'
  else if c = 't' then some '\t'
  else if c = 'v' then some (Char.ofNat 11)
  else none

/-- Value of a digit in base 10 or 16 (C standard, `strtol`). -/
def digitVal (base : Nat) (c : Char) : Option Nat :=
  let v := if '0' ≤ c && c ≤ '9' then some (c.toNat - 48)
    else if 'a' ≤ c && c ≤ 'f' then some (c.toNat - 87)
    else if 'A' ≤ c && c ≤ 'F' then some (c.toNat - 55)
    else none
  v.bind fun d => if d < base then some d else none

/-- The digits at the beginning of a text: their value and the rest; `none` without digits (C standard, `strtol`). -/
def digitsOf (base : Nat) : Nat → Str → Nat × Str
  | acc, [] => (acc, [])
  | acc, c :: s =>
    match digitVal base c with
    | some d => digitsOf base (acc * base + d) s
    | none => (acc, c :: s)

/-- Whether a text begins with a digit (C standard, `strtol`). -/
def startsDigit (base : Nat) (s : Str) : Bool :=
  match s with
  | [] => false
  | c :: _ => (digitVal base c).isSome

/-- `strtol(s, &end, base)` with the result stored in an `int` (C standard; used in libhfst/src/parsers/xre_utils.cc:461,
pmatch_utils.cc:1141): blanks, a sign, `0x` for base 16, digits.  Values outside the range of `long` become its limits. -/
def strtol (base : Nat) (s : Str) : Int × Str :=
  let t := s.dropWhile isSpace
  let neg := t.head? = some '-'
  let u := if t.head? = some '-' || t.head? = some '+' then t.drop 1 else t
  let u := if base = 16 && u.head? = some '0' && (u[1]? = some 'x' || u[1]? = some 'X') && startsDigit 16 (u.drop 2)
    then u.drop 2 else u
  if startsDigit base u then
    let r := digitsOf base 0 u
    let v : Int := if neg then -(min r.1 (2 ^ 63) : Nat) else (min r.1 (2 ^ 63 - 1) : Nat)
    ((v + 2 ^ 31) % 2 ^ 32 - 2 ^ 31, r.2)
  else (0, s)

/-- Characters written before what follows. -/
def emit (cs : Str) : Outcome Str → Outcome Str
  | .ok r => .ok (cs ++ r)
  | .throws => .throws
  | .undefined => .undefined

/-- The loop of `parse_quoted` of regular expressions (libhfst/src/parsers/xre_utils.cc:385-495): the characters written.
The first argument bounds the number of rounds.  The token is taken to end with its closing quote, so
the copy that is read ends with two NULs (the quote was replaced by one), so jumping to the second one is still allowed; beyond it is undefined. -/
def xreQuoted : Nat → Str → Outcome Str
  | _, [] => .ok []
  | 0, _ :: _ => .undefined
  | n + 1, c :: s =>
    if c = '\n' ∨ c = '\r' then .throws
    else if c ≠ '\\' then emit [c] (xreQuoted n s)
    else match s with
      | [] => emit [nul] (xreQuoted n [])
      | d :: t =>
        if '0' ≤ d ∧ d ≤ '7' then (if t.length + 1 < 3 then .undefined else xreQuoted n (t.drop 3))
        else match letterEscape d with
          | some e => emit [e] (xreQuoted n t)
          | none =>
            if d = 'u' then (if t.length + 1 < 4 then .undefined else emit [nul] (xreQuoted n (t.drop 4)))
            else if d = 'x' then
              let r := strtol 10 t
              emit [if 0 < r.1 ∧ r.1 ≤ 127 then Char.ofNat r.1.toNat else nul] (xreQuoted n r.2)
            else emit [d] (xreQuoted n t)

/-- The text that a caller sees: the written characters up to the first NUL (libhfst/src/parsers/xre_utils.cc:496). -/
def cString (s : Str) : Str := s.takeWhile (· ≠ nul)

/-- `parse_quoted` (libhfst/src/parsers/xre_utils.cc:375-503) on the text between the quotes; the check that the result is
UTF-8 is left out. -/
def xreParseQuoted (s : Str) : Outcome Str :=
  match xreQuoted s.length s with
  | .ok r => if s.length + 1 < r.length + 1 then .undefined else .ok (cString r)
  | .throws => .throws
  | .undefined => .undefined

/-- The loop of `parse_quoted` of pattern files (libhfst/src/parsers/pmatch_utils.cc:1036-1172); `utf8` is
`codepoint_to_utf8`.  After a code point `strcpy` has written a NUL, and `r` is moved behind it (1109, 1129). -/
def pmatchQuoted (utf8 : Nat → Str) : Nat → Str → Outcome Str
  | _, [] => .ok []
  | 0, _ :: _ => .undefined
  | n + 1, c :: s =>
    if c ≠ '\\' then emit [c] (pmatchQuoted utf8 n s)
    else match s with
      | [] => emit [nul] (pmatchQuoted utf8 n [])
      | d :: t =>
        if '0' ≤ d ∧ d ≤ '7' then (if t.length + 1 < 3 then .undefined else pmatchQuoted utf8 n (t.drop 3))
        else match letterEscape d with
          | some e => emit [e] (pmatchQuoted utf8 n t)
          | none =>
            if d = 'u' then
              if t.length < 4 then emit ['\\', 'u'] (pmatchQuoted utf8 n t)
              else emit (utf8 ((strtol 16 (t.take 4)).1 % 2 ^ 32).toNat ++ [nul]) (pmatchQuoted utf8 n (t.drop 4))
            else if d = 'U' then
              if t.length < 8 then emit ['\\', 'U'] (pmatchQuoted utf8 n t)
              else emit (utf8 ((strtol 16 (t.take 8)).1 % 2 ^ 32).toNat ++ [nul]) (pmatchQuoted utf8 n (t.drop 8))
            else if d = 'x' then
              let r := strtol 16 t
              emit [if 0 < r.1 ∧ r.1 ≤ 127 then Char.ofNat r.1.toNat else nul] (pmatchQuoted utf8 n r.2)
            else emit [d] (pmatchQuoted utf8 n t)

/-- `parse_quoted` (libhfst/src/parsers/pmatch_utils.cc:1026-1176) on the text between the quotes. -/
def pmatchParseQuoted (utf8 : Nat → Str) (s : Str) : Outcome Str :=
  match pmatchQuoted utf8 s.length s with
  | .ok r => if s.length + 1 < r.length + 1 then .undefined else .ok (cString r)
  | .throws => .throws
  | .undefined => .undefined

/-- `unescape_delimited` (libhfst/src/parsers/pmatch_utils.cc:1002-1024). -/
def unescapeDelimited (delim : Char) : Str → Str
  | [] => []
  | [c] => [c]
  | c :: d :: s =>
    if c = '\\' ∧ (d = delim ∨ d = '\\') then d :: unescapeDelimited delim s
    else c :: unescapeDelimited delim (d :: s)

/-! ## Ranges of characters -/

/-- The continuation bytes read by `next_utf8_to_codepoint` (libhfst/src/parsers/pmatch_utils.cc:1207-1210).  A missing
byte is read as the terminating NUL or lies beyond it, and the pointer moves behind it at 1211: undefined. -/
def contValue : Nat → Nat → Hfst.Tok.Bytes → Outcome (Nat × Hfst.Tok.Bytes)
  | 0, v, s => .ok (v, s)
  | _ + 1, _, [] => .undefined
  | n + 1, v, c :: s => contValue n ((v <<< 6) ||| (c &&& 63).toNat) s

/-- `next_utf8_to_codepoint` (libhfst/src/parsers/pmatch_utils.cc:1178-1213): the value and the rest of the text.  It is
called before the end of the text only. -/
def nextCodepoint : Hfst.Tok.Bytes → Outcome (Nat × Hfst.Tok.Bytes)
  | [] => .undefined
  | c :: s =>
    if c ≤ 127 then contValue 0 (c &&& 127).toNat s
    else if c &&& (128 + 64) = 128 + 64 then contValue 1 (c &&& 31).toNat s
    else if c &&& (128 + 64 + 32) = 128 + 64 + 32 then contValue 2 (c &&& 15).toNat s
    else if c &&& (128 + 64 + 32 + 16) = 128 + 64 + 32 + 16 then contValue 3 (c &&& 7).toNat s
    else .ok (0, c :: s)

end Hfst.Escapes
