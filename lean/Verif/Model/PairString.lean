import Verif.Model.Text

/-!
# Pair strings

Model of libhfst/src/HfstStrings2FstTokenizer.cc.  The functions work on the tokens that `HfstTokenizer` makes of the
input (modelled in `Verif.Model.Tokenizer`), so the tokens are the input here.  `throws` is the exception
`UnescapedColsFound`.
-/
namespace Hfst.PairString
open Hfst.Basic

/-- The positions of `needle` in `s`, smallest first: `s.find(needle)` (C++ standard; used in
libhfst/src/HfstStrings2FstTokenizer.cc:196). -/
def findStr (needle : Str) : Str → Option Nat
  | [] => if needle = [] then some 0 else none
  | c :: s => if needle.isPrefixOf (c :: s) then some 0 else (findStr needle s).map (· + 1)

/-- `while ((pos = symbol.find(needle)) != npos) symbol.replace(pos, size, repl)`
(libhfst/src/HfstStrings2FstTokenizer.cc:195-229).  Each search starts at the beginning again.  The first argument bounds the
number of rounds; each call below passes enough. -/
def replaceLoop (needle repl : Str) : Nat → Str → Str
  | 0, s => s
  | n + 1, s =>
    match findStr needle s with
    | none => s
    | some p => replaceLoop needle repl n (s.take p ++ repl ++ s.drop (p + needle.length))

/-- One of the loops of `unescape` (libhfst/src/HfstStrings2FstTokenizer.cc:195-229): every round removes at least one
character of the original text, so as many rounds as characters are enough. -/
def replaceEach (s needle repl : Str) : Str := replaceLoop needle repl s.length s

/-- The loop of `check_cols`: `prev2` and `prev` are the two characters before
(libhfst/src/HfstStrings2FstTokenizer.cc:267-279).  `true` means that the exception is thrown. -/
def strayColGo : Option Char → Option Char → Str → Bool
  | _, _, [] => false
  | prev2, prev, c :: s =>
    if c = ':' && (prev ≠ some '\\' || prev2 = some '\\') then true else strayColGo prev (some c) s

/-- `check_cols` (libhfst/src/HfstStrings2FstTokenizer.cc:259-281). -/
def strayCol (s : Str) : Bool := strayColGo none none s

/-- `unescape` (libhfst/src/HfstStrings2FstTokenizer.cc:185-232). -/
def unescape (s : Str) : Outcome Str :=
  if strayCol s then .throws
  else if s = ['\\', '\\'] then .ok ['\\']
  else
    let s1 := replaceEach s ['\\', '\\'] "@_BACKSLASH_@".toList
    let s2 := replaceEach s1 ['\\'] []
    let s3 := replaceEach s2 "@_BACKSLASH_@".toList []
    let s4 := replaceEach s3 "@_SPACE_@".toList " ".toList
    let s5 := replaceEach s4 "@_TAB_@".toList "   ".toList
    .ok (replaceEach s5 "@_COLON_@".toList ":".toList)

/-- The symbol for a token, looked at after unescaping (libhfst/src/HfstStrings2FstTokenizer.cc:124-126, 150-157). -/
def symAfter (eps : Str) (t : Str) : Outcome Str :=
  match unescape t with
  | .ok s => .ok (if s = [] ∨ s = eps then epsilon else s)
  | .throws => .throws
  | .undefined => .undefined

/-- The symbol for a token, looked at before unescaping (libhfst/src/HfstStrings2FstTokenizer.cc:131-135, 165-168, 175-178). -/
def symBefore (eps : Str) (t : Str) : Outcome Str :=
  if t = [] ∨ t = eps then .ok epsilon else unescape t

/-- Evaluation of two symbols and what follows; an exception ends it (libhfst/src/HfstStrings2FstTokenizer.cc:116-140). -/
def consPair (a b : Outcome Str) (rest : Outcome (List (Str × Str))) : Outcome (List (Str × Str)) :=
  match a, b, rest with
  | .ok a, .ok b, .ok r => .ok ((a, b) :: r)
  | .undefined, _, _ => .undefined
  | .throws, _, _ => .throws
  | _, .undefined, _ => .undefined
  | _, .throws, _ => .throws
  | _, _, .undefined => .undefined
  | _, _, .throws => .throws

/-- `make_pair_vector(v)` (libhfst/src/HfstStrings2FstTokenizer.cc:116-140, with `is_pair_input_symbol`, 234-257): a token is
the input side of a pair if the next one is a colon and another one follows. -/
def makePairs (eps : Str) : List Str → Outcome (List (Str × Str))
  | [] => .ok []
  | [a] => consPair (symAfter eps a) (symAfter eps a) (.ok [])
  | [a, b] => consPair (symAfter eps a) (symAfter eps a) (consPair (symAfter eps b) (symAfter eps b) (.ok []))
  | a :: c :: b :: rest =>
    if c = [':'] then consPair (symBefore eps a) (symBefore eps b) (makePairs eps rest)
    else consPair (symAfter eps a) (symAfter eps a) (makePairs eps (c :: b :: rest))

/-- What is left of the output when the input has ended (libhfst/src/HfstStrings2FstTokenizer.cc:161-170). -/
def padOutputs (eps : Str) : List Str → Outcome (List (Str × Str))
  | [] => .ok []
  | b :: os => consPair (.ok epsilon) (symBefore eps b) (padOutputs eps os)

/-- What is left of the input when the output has ended (libhfst/src/HfstStrings2FstTokenizer.cc:171-181). -/
def padInputs (eps : Str) : List Str → Outcome (List (Str × Str))
  | [] => .ok []
  | a :: is => consPair (symBefore eps a) (.ok epsilon) (padInputs eps is)

/-- `make_pair_vector(input, output)` (libhfst/src/HfstStrings2FstTokenizer.cc:142-183). -/
def makePairs2 (eps : Str) : List Str → List Str → Outcome (List (Str × Str))
  | a :: is, b :: os => consPair (symAfter eps a) (symAfter eps b) (makePairs2 eps is os)
  | [], os => padOutputs eps os
  | a :: is, [] => padInputs eps (a :: is)

/-- The loop of `split_at_spaces` (libhfst/src/HfstStrings2FstTokenizer.cc:310-351); `cur` is `symbol`.  The inner loops that
skip further spaces do what the next rounds would do. -/
def splitGo : Str → List Str → List Str
  | cur, [] => if cur = [] then [] else [cur]
  | cur, t :: ts =>
    if t = [' '] ∧ cur ≠ [] then cur :: splitGo [] ts
    else if t = [' '] then splitGo cur ts
    else if t = [':'] ∧ cur ≠ [] then cur :: [':'] :: splitGo [] ts
    else if t = [':'] then [':'] :: splitGo cur ts
    else splitGo (cur ++ t) ts

/-- `split_at_spaces` (libhfst/src/HfstStrings2FstTokenizer.cc:304-352) on the tokens of the string. -/
def splitAtSpaces (ts : List Str) : List Str := splitGo [] ts

/-- `tokenize_pair_string` (libhfst/src/HfstStrings2FstTokenizer.cc:71-88) on the tokens of the string. -/
def tokenizePairString (eps : Str) (spaces : Bool) (ts : List Str) : Outcome (List (Str × Str)) :=
  makePairs eps (if spaces then splitAtSpaces ts else ts.filter (· ≠ ['\\']))

/-- `tokenize_string_pair` (libhfst/src/HfstStrings2FstTokenizer.cc:90-114) on the tokens of the string. -/
def tokenizeStringPair (eps : Str) (spaces : Bool) (ts : List Str) : Outcome (List (Str × Str)) :=
  let v := if spaces then splitAtSpaces ts else ts
  if [':'] ∈ v then makePairs2 eps (v.takeWhile (· ≠ [':'])) ((v.dropWhile (· ≠ [':'])).drop 1)
  else makePairs2 eps v v

end Hfst.PairString
