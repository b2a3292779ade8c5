import Verif.Model.Flags

/-!
# Tokenizer

Model of libhfst/src/HfstTokenizer.cc.  Strings are lists of bytes.  Grapheme segmentation is done by ICU and
is a parameter of the model.
-/
namespace Hfst.Tok

/-- A C++ `char` seen as `unsigned char` (libhfst/src/HfstTokenizer.cc:36 casts it so). -/
abbrev Byte := UInt8

/-- Byte strings (`std::string`, libhfst/src/HfstTokenizer.h:32). -/
abbrev Bytes := List Byte

/-- The C string `s.c_str()` (libhfst/src/HfstTokenizer.cc:219, 239): everything up to the first NUL. -/
def cStr (s : Bytes) : Bytes := s.takeWhile (· ≠ 0)

/-- `class MultiCharSymbolTrie` (libhfst/src/HfstTokenizer.h:39-65): two vectors indexed by the byte;
`none` in `rests` is the null pointer. -/
inductive Trie where
  | node (rests : List (Option Trie)) (leafs : List Bool)

/-- Member `symbol_rests` (libhfst/src/HfstTokenizer.h:42). -/
def Trie.rests : Trie → List (Option Trie)
  | .node r _ => r

/-- Member `is_leaf` (libhfst/src/HfstTokenizer.h:43). -/
def Trie.leafs : Trie → List Bool
  | .node _ l => l

/-- Constructor (libhfst/src/HfstTokenizer.cc:64-68): both vectors have `UCHAR_MAX` = 255 entries. -/
def Trie.empty : Trie := .node (List.replicate 255 none) (List.replicate 255 false)

/-- `MultiCharSymbolTrie::add` (libhfst/src/HfstTokenizer.cc:24-55, 79-91) on a C string given without its
terminating NUL.  `none` is undefined behaviour (index outside the vectors).  The code is never called with
the empty string; it would read behind the terminator, so this is undefined as well. -/
def Trie.add : Trie → Bytes → Option Trie
  | _, [] => none
  | t, [b] =>
    if b.toNat < t.leafs.length then some (.node t.rests (t.leafs.set b.toNat true)) else none
  | t, b :: c :: s =>
    match t.rests[b.toNat]? with
    | none => none
    | some sub =>
      match (sub.getD .empty).add (c :: s) with
      | none => none
      | some sub' => some (.node (t.rests.set b.toNat (some sub')) t.leafs)

/-- `MultiCharSymbolTrie::find` (libhfst/src/HfstTokenizer.cc:93-114) on a C string given without its
terminating NUL: outer `none` is undefined behaviour, inner `none` the null pointer, `some n` the pointer `n`
bytes after the argument.  At the end of the string the code inspects the entry of the NUL byte; if that were
set it would read behind the terminator. -/
def Trie.find : Trie → Bytes → Option (Option Nat)
  | t, [] =>
    match t.rests[0]?, t.leafs[0]? with
    | some none, some false => some none
    | _, _ => none
  | t, b :: s =>
    match t.rests[b.toNat]?, t.leafs[b.toNat]? with
    | some none, some leaf => some (if leaf then some 1 else none)
    | some (some sub), some leaf =>
      match sub.find s with
      | none => none
      | some none => some (if leaf then some 1 else none)
      | some (some n) => some (some (n + 1))
    | _, _ => none

/-- `class HfstTokenizer` (libhfst/src/HfstTokenizer.h:85-95). -/
structure Tokenizer where
  trie : Trie
  skip : List Bytes

/-- `HfstTokenizer()` (libhfst/src/HfstTokenizer.cc:116). -/
def Tokenizer.empty : Tokenizer := { trie := .empty, skip := [] }

/-- `add_multichar_symbol` (libhfst/src/HfstTokenizer.cc:212-220); `none` is undefined behaviour. -/
def Tokenizer.addMultichar (t : Tokenizer) (s : Bytes) : Option Tokenizer :=
  if s = [] then some t
  else (t.trie.add (cStr s)).map fun tr => { t with trie := tr }

/-- `add_skip_symbol` (libhfst/src/HfstTokenizer.cc:222-231); `none` is undefined behaviour. -/
def Tokenizer.addSkip (t : Tokenizer) (s : Bytes) : Option Tokenizer :=
  if s = [] then some t
  else (t.trie.add (cStr s)).map fun tr => { trie := tr, skip := cStr s :: t.skip }

/-- A registration of a symbol: `skip` tells which of the two functions above is called. -/
structure Reg where
  skip : Bool
  sym : Bytes

/-- Registering symbols one after the other (libhfst/src/HfstTokenizer.cc:212-231). -/
def Tokenizer.register (t : Tokenizer) : List Reg → Option Tokenizer
  | [] => some t
  | r :: rs => (if r.skip then t.addSkip r.sym else t.addMultichar r.sym).bind fun t' => t'.register rs

/-- Size of the next UTF-8 character by bit tests on the first byte
(libhfst/src/HfstTokenizer.cc:181-203, `split_characters`). -/
def utf8Size (b : Byte) : Nat :=
  if 128 &&& b = 0 then 1
  else if 32 &&& b = 0 then 2
  else if 16 &&& b = 0 then 3
  else 4

/-- `get_next_symbol_size` (libhfst/src/HfstTokenizer.cc:118-204) on a C string.  `grapheme` is the number of
bytes of the first grapheme cluster as found by ICU (lines 138-179); it is consulted only when
`split = false`.  `none` is undefined behaviour. -/
def Tokenizer.nextSize (t : Tokenizer) (grapheme : Bytes → Nat) (split : Bool) (s : Bytes) : Option Nat :=
  match s with
  | [] => some 0
  | b :: _ =>
    match t.trie.find s with
    | none => none
    | some (some n) => some n
    | some none => some (if split then utf8Size b else grapheme s)

/-- `is_skip_symbol` (libhfst/src/HfstTokenizer.cc:206-210). -/
def Tokenizer.isSkip (t : Tokenizer) (s : Bytes) : Bool := s.isEmpty || t.skip.contains s

/-- What running the tokenization loop can end in: undefined behaviour, running forever, tokens. -/
inductive TokResult where
  | undefined
  | forever
  | tokens (l : List Bytes)
  deriving DecidableEq

/-- The loop of `tokenize` and `tokenize_one_level` (libhfst/src/HfstTokenizer.cc:239-251, 260-273) on a C
string.  A size of 0 makes the loop repeat without progress; a size beyond the end moves the pointer behind
the terminator. -/
def Tokenizer.loop (t : Tokenizer) (grapheme : Bytes → Nat) (split : Bool) (s : Bytes) : TokResult :=
  if h : s = [] then .tokens []
  else
    match t.nextSize grapheme split s with
    | none => .undefined
    | some 0 => .forever
    | some (n + 1) =>
      if s.length < n + 1 then .undefined
      else
        match t.loop grapheme split (s.drop (n + 1)) with
        | .tokens l => .tokens (if t.isSkip (s.take (n + 1)) then l else s.take (n + 1) :: l)
        | r => r
termination_by s.length
decreasing_by
  have : s.length ≠ 0 := by simpa using h
  simp only [List.length_drop]
  omega

/-- `tokenize_one_level` (libhfst/src/HfstTokenizer.cc:254-274), after the UTF-8 check. -/
def Tokenizer.tokenize (t : Tokenizer) (grapheme : Bytes → Nat) (split : Bool) (s : Bytes) : TokResult :=
  t.loop grapheme split (cStr s)

/-- `tokenize_space_separated` (libhfst/src/HfstTokenizer.cc:276-314): the loop from position `pos` on, where
`cur` is the part of the current symbol read so far (`none`: `symbol_pos == npos`).  The code keeps the start
position of the symbol instead and cuts it out at the end. -/
def spaceLoop : Bytes → Option Bytes → List Bytes
  | [], none => []
  | [], some cur => [cur]
  | c :: s, some cur => if c = 32 then cur :: spaceLoop s none else spaceLoop s (some (cur ++ [c]))
  | c :: s, none => if c ≠ 32 then spaceLoop s (some [c]) else spaceLoop s none

/-- `tokenize_space_separated` (libhfst/src/HfstTokenizer.cc:276-314); every symbol is paired with itself. -/
def tokenizeSpaceSeparated (s : Bytes) : List (Bytes × Bytes) :=
  (spaceLoop s none).map fun x => (x, x)

/-- The pairing loops of `tokenize(input, output)` (libhfst/src/HfstTokenizer.cc:331-358): first zip, then pad
the shorter side. -/
def pairUp {τ : Type} (eps : τ) (ins outs : List τ) : List (τ × τ) :=
  if ins.length < outs.length then
    ins.zip outs ++ (outs.drop ins.length).map fun o => (eps, o)
  else
    ins.zip outs ++ (ins.drop outs.length).map fun i => (i, eps)

/-- The loop of `tokenize_and_align_flag_diacritics` (libhfst/src/HfstTokenizer.cc:440-501).  `isFlag` is
`FdOperation::is_diacritic`. -/
def alignLoop {τ : Type} [DecidableEq τ] (isFlag : τ → Bool) (eps : τ) : List τ → List τ → List (τ × τ)
  | [], [] => []
  | [], o :: outs => (if isFlag o then (o, o) else (eps, o)) :: alignLoop isFlag eps [] outs
  | i :: ins, [] => (if isFlag i then (i, i) else (i, eps)) :: alignLoop isFlag eps ins []
  | i :: ins, o :: outs =>
    if (!isFlag i && !isFlag o) || i = o then (i, o) :: alignLoop isFlag eps ins outs
    else (i, i) :: (o, o) :: alignLoop isFlag eps ins outs

/-- `tokenize_and_align_flag_diacritics` (libhfst/src/HfstTokenizer.cc:418-502): `none` is the failed
assertion that neither side is empty. -/
def alignFlags {τ : Type} [DecidableEq τ] (isFlag : τ → Bool) (eps : τ) (ins outs : List τ) :
    Option (List (τ × τ)) :=
  if ins.length > 0 ∧ outs.length > 0 then some (alignLoop isFlag eps ins outs) else none

end Hfst.Tok
