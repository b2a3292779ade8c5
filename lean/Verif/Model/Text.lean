import Verif.Model.Graph

/-!
# Text helpers shared by the text formats

Model of libhfst/src/string-utils.cc and of the C library calls used by the readers and writers of text formats.
Text contains no NUL character (a NUL would end a C string early; the model leaves it out).
-/
namespace Hfst.Text
open Hfst.StdString Hfst.Basic

/-- The loop of `replace_all` (libhfst/src/string-utils.cc:19-31).  `skip` characters belong to an occurrence of
the needle that has been replaced.  The C++ loop does not end for an empty needle; no caller passes one, and the
model then returns the text unchanged. -/
def replaceGo (needle repl : Str) : Nat → Str → Str
  | _, [] => []
  | k + 1, _ :: cs => replaceGo needle repl k cs
  | 0, c :: cs =>
    if needle ≠ [] ∧ needle.isPrefixOf (c :: cs) then repl ++ replaceGo needle repl (needle.length - 1) cs
    else c :: replaceGo needle repl 0 cs

/-- `replace_all` (libhfst/src/string-utils.cc:19-31). -/
def replaceAll (hay needle repl : Str) : Str := replaceGo needle repl 0 hay

/-- `isspace` in the C locale (C standard; used by `sscanf` in
libhfst/src/implementations/HfstBasicTransducer.cc:1732). -/
def isSpace (c : Char) : Bool :=
  c = ' ' || c = '\t' || c = '\n' || c = Char.ofNat 11 || c = Char.ofNat 12 || c = '\r'

/-- `isdigit` (C standard; used by `atoi` in libhfst/src/implementations/HfstBasicTransducer.cc:1751). -/
def isDigit (c : Char) : Bool := '0' ≤ c && c ≤ '9'

/-- The digit for `d` (used by `%i` in libhfst/src/implementations/HfstBasicTransducer.cc:1611). -/
def digitChar (d : Nat) : Char := Char.ofNat (48 + d)

/-- Decimal digits of `n`, most significant first; the first argument bounds their number (used by `%i` in
libhfst/src/implementations/HfstBasicTransducer.cc:1611). -/
def natTextGo : Nat → Nat → Str
  | 0, _ => []
  | f + 1, n => if n < 10 then [digitChar n] else natTextGo f (n / 10) ++ [digitChar (n % 10)]

/-- `fprintf("%i", n)` for a number in the range of `int` (libhfst/src/implementations/HfstBasicTransducer.cc:1611). -/
def natText (n : Nat) : Str := natTextGo (n + 1) n

/-- Value of a sequence of digits (C standard, `atoi`). -/
def digitsValue (s : Str) : Nat := s.foldl (fun v c => v * 10 + (c.toNat - 48)) 0

/-- `(unsigned int) atoi(s)` (used in libhfst/src/implementations/HfstBasicTransducer.cc:1751, 1776-1777); `none` is
the undefined behaviour for a value outside the range of `int`. -/
def atoi (s : Str) : Option Nat :=
  match s.dropWhile isSpace with
  | '-' :: r =>
    let v := digitsValue (r.takeWhile isDigit)
    if v = 0 then some 0 else if v ≤ 2 ^ 31 then some (2 ^ 32 - v) else none
  | '+' :: r =>
    let v := digitsValue (r.takeWhile isDigit)
    if v < 2 ^ 31 then some v else none
  | r =>
    let v := digitsValue (r.takeWhile isDigit)
    if v < 2 ^ 31 then some v else none

/-- `sscanf(line, "%s%s...")` with `n` conversions: the fields that could be read (used in
libhfst/src/implementations/HfstBasicTransducer.cc:1732). -/
def scanFields : Nat → Str → List Str
  | 0, _ => []
  | n + 1, s =>
    match s.dropWhile isSpace with
    | [] => []
    | c :: cs => (c :: cs).takeWhile (fun d => !isSpace d) :: scanFields n ((c :: cs).dropWhile (fun d => !isSpace d))

/-- A `FILE*` open for reading: what is left to read and the end-of-file indicator (C standard; used in
libhfst/src/implementations/HfstBasicTransducer.cc:1811-1832). -/
structure File where
  rest : Str
  eof : Bool
  deriving DecidableEq, Repr

/-- Characters read by `fgets` when at most `n` are stored: the line with its newline, what is left, and whether the
end of the file was met (C standard). -/
def takeLine : Nat → Str → Str × Str × Bool
  | 0, s => ([], s, false)
  | _ + 1, [] => ([], [], true)
  | n + 1, c :: cs =>
    if c = '\n' then ([c], cs, false)
    else let r := takeLine n cs; (c :: r.1, r.2.1, r.2.2)

/-- `fgets(line, size, file)`; `none` is the result NULL (used in
libhfst/src/implementations/HfstBasicTransducer.cc:1832). -/
def fgets (size : Nat) (f : File) : Option Str × File :=
  match f.rest with
  | [] => (none, { f with eof := true })
  | c :: cs =>
    let r := takeLine (size - 1) (c :: cs)
    (some r.1, { rest := r.2.1, eof := f.eof || r.2.2 })

/-- `fgetc(file)` with its result thrown away (used in libhfst/src/implementations/HfstBasicTransducer.cc:1853). -/
def fgetc (f : File) : File :=
  match f.rest with
  | [] => { f with eof := true }
  | _ :: cs => { f with rest := cs }

end Hfst.Text
