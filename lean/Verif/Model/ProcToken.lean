import Verif.Model.Graph

/-!
# hfst-proc: from the text to tokens and back

Model of `LetterTrie` and `Symbolizer` (tools/src/hfst-proc/alphabet.h, alphabet.cc) and of the part of `TokenIOStream` that reads
and prints tokens (tools/src/hfst-proc/tokenizer.h, tokenizer.cc).

* The stream is the list of the bytes still to be read.  `get` takes one, `putback` puts one back.
* Only streams without null flushing (option `-z`) are modelled.
* A token for a superblank carries its text and not the index of it in the bucket.
* Symbol numbers are not limited to 16 bits; the theorems ask that there are at most 65535 symbols.
-/
namespace Hfst.Proc
open Hfst.Basic

/-- Bytes of the stream (`char`, tools/src/hfst-proc/tokenizer.h:47). -/
abbrev Bytes := List UInt8

/-- `NO_SYMBOL_NUMBER` (libhfst/src/implementations/optimized-lookup/transducer.h:94; used in tools/src/hfst-proc/alphabet.h:44). -/
def noSym : Nat := 65535

/-- `LetterTrie` (tools/src/hfst-proc/alphabet.h:28-32).  Both vectors have 255 elements, so there is none for byte 255. -/
inductive Trie
  | node (letters : UInt8 → Option Trie) (symbols : UInt8 → Nat)

/-- The member `letters` (tools/src/hfst-proc/alphabet.h:31). -/
def Trie.letters : Trie → UInt8 → Option Trie
  | .node l _ => l

/-- The member `symbols` (tools/src/hfst-proc/alphabet.h:32). -/
def Trie.symbols : Trie → UInt8 → Nat
  | .node _ s => s

/-- The constructor (tools/src/hfst-proc/alphabet.h:41-46). -/
def Trie.empty : Trie := .node (fun _ => none) (fun _ => noSym)

/-- `v[c] = x` for a vector (used in tools/src/hfst-proc/alphabet.cc:49, 54, 108, 110). -/
def putAt {α : Type} (v : UInt8 → α) (c : UInt8) (x : α) : UInt8 → α := fun d => if d = c then x else v d

/-- `LetterTrie::add_string` (tools/src/hfst-proc/alphabet.cc:44-56), for a string that is not empty. -/
def Trie.add : Trie → Bytes → Nat → Outcome Trie
  | _, [], _ => .undefined
  | t, [c], k => if c = 255 then .undefined else .ok (.node t.letters (putAt t.symbols c k))
  | t, c :: d :: rest, k =>
    if c = 255 then .undefined
    else (((t.letters c).getD .empty).add (d :: rest) k).bind fun sub => .ok (.node (putAt t.letters c (some sub)) t.symbols)

/-- `LetterTrie::extract_symbol` (tools/src/hfst-proc/alphabet.cc:70-92): the number, and the stream afterwards. -/
def Trie.extract : Trie → Bytes → Outcome (Nat × Bytes)
  | _, [] => .ok (0, [])
  | t, c :: rest =>
    if c = 255 then .undefined
    else match t.letters c with
      | none => .ok (t.symbols c, if t.symbols c = noSym then c :: rest else rest)
      | some sub => (sub.extract rest).bind fun r =>
        if r.1 = noSym then .ok (t.symbols c, if t.symbols c = noSym then c :: r.2 else r.2) else .ok r

/-- The members of `Symbolizer` (tools/src/hfst-proc/alphabet.h:79-83). -/
structure Symbolizer where
  letters : Trie
  ascii : UInt8 → Nat
  count : Nat

/-- The constructor (tools/src/hfst-proc/alphabet.h:86-91). -/
def Symbolizer.empty : Symbolizer := ⟨.empty, fun _ => noSym, 0⟩

/-- `Symbolizer::add_symbol` (tools/src/hfst-proc/alphabet.cc:96-115). -/
def Symbolizer.add (z : Symbolizer) (p : Bytes) : Outcome Symbolizer :=
  match p with
  | [] => .ok { z with count := z.count + 1 }
  | c :: rest =>
    if c = 255 then .undefined
    else
      let ascii := if z.ascii c ≠ 0 then (if rest = [] then putAt z.ascii c z.count else putAt z.ascii c 0) else z.ascii
      (z.letters.add (c :: rest) z.count).bind fun t => .ok ⟨t, ascii, z.count + 1⟩

/-- All symbols of a table one after another (tools/src/hfst-proc/alphabet.cc:117-122; and as in the loop of the alphabet,
alphabet.cc:155-163). -/
def Symbolizer.addAll : List Bytes → Symbolizer → Outcome Symbolizer
  | [], z => .ok z
  | p :: ps, z => (z.add p).bind fun z => Symbolizer.addAll ps z

/-- `Symbolizer::extract_symbol` (tools/src/hfst-proc/alphabet.cc:136-146).  At the end of the stream the index is -1. -/
def Symbolizer.extract (z : Symbolizer) (s : Bytes) : Outcome (Nat × Bytes) :=
  match s with
  | [] => .undefined
  | c :: rest =>
    if c = 0 then .ok (noSym, s)
    else if c = 255 then .undefined
    else if z.ascii c = noSym ∨ z.ascii c = 0 then z.letters.extract s
    else .ok (z.ascii c, rest)

/-- The tokens (tools/src/hfst-proc/tokenizer.h:28-52), except `None`. -/
inductive Tok
  | sym (k : Nat) (escaped : Bool)
  | char (b : Bytes)
  | blank (b : Bytes)
  | reserved (c : UInt8)
  deriving DecidableEq

/-- `TokenIOStream::initialize_escaped_chars` (tools/src/hfst-proc/tokenizer.cc:37-51): `[ ] { } ^ $ / \ @ < >`. -/
def escapedChars : List UInt8 := [91, 93, 123, 125, 94, 36, 47, 92, 64, 60, 62]

/-- What a stream of tokens knows (tools/src/hfst-proc/tokenizer.h:182-186): the symbols of the transducer, as strings and as
`Symbolizer`, and whether the text is raw, for which the set of escaped characters is empty (tools/src/hfst-proc/tokenizer.cc:31). -/
structure Stream where
  table : List Bytes
  symbolizer : Symbolizer
  raw : Bool

/-- `escaped_chars.find(c) != escaped_chars.end()` (tools/src/hfst-proc/tokenizer.cc:183, 303, 363). -/
def Stream.esc (m : Stream) (c : UInt8) : Bool := !m.raw && escapedChars.contains c

/-- `symbol_to_string` (tools/src/hfst-proc/alphabet.h:272-276).  The first symbol is not printed
(tools/src/hfst-proc/alphabet.cc:165-166). -/
def Stream.symbolString (m : Stream) (k : Nat) : Bytes := if k = 0 then [] else m.table.getD k []

/-- `is_tag` (tools/src/hfst-proc/alphabet.cc:530-542). -/
def Stream.isTag (m : Stream) (k : Nat) : Bool :=
  let str := m.symbolString k
  (str.head? == some 60 && str.getLast? == some 62) || (str.head? == some 43 && decide (1 < str.length))

/-- The length of a character from its first byte (tools/src/hfst-proc/tokenizer.cc:116-125); 0 if it is not valid. -/
def charLength (c : UInt8) : Nat :=
  if c ≤ 127 then 1
  else if c &&& 240 = 240 then 4
  else if c &&& 224 = 224 then 3
  else if c &&& 192 = 192 then 2
  else 0

/-- `TokenIOStream::read_utf8_char` (tools/src/hfst-proc/tokenizer.cc:107-132).  At a NUL byte nothing is read and the stream fails;
the next token is then looked up at index -1, so the outcome is undefined. -/
def readChar : Bytes → Outcome (Bytes × Bytes)
  | [] => .ok ([], [])
  | c :: rest =>
    if c = 0 then .undefined
    else if charLength c = 0 then .throws
    else
      let got := ((c :: rest).take (charLength c)).takeWhile fun b => b ≠ 0
      .ok (got, (c :: rest).drop got.length)

/-- `TokenIOStream::make_token` (tools/src/hfst-proc/tokenizer.cc:251-288); `none` is the token of type `None`. -/
def Stream.makeToken (m : Stream) (s : Bytes) (wasEscaped : Bool) : Outcome (Option Tok × Bytes) :=
  (m.symbolizer.extract s).bind fun r =>
    if r.1 = 0 then .ok (none, r.2)
    else if r.1 ≠ noSym then .ok (some (.sym r.1 wasEscaped), r.2)
    else (readChar r.2).bind fun q =>
      if wasEscaped then .ok (some (.char q.1), q.2)
      else match q.1 with
        | [] => .ok (some (.char []), q.2)
        | c :: _ => .ok (some (if m.esc c then .reserved c else .char q.1), q.2)

/-- The second loop of `TokenIOStream::read_delimited(']')` (tools/src/hfst-proc/tokenizer.cc:215-226) with `read_escaped`
(tokenizer.cc:178-187): what is read, the stream afterwards, and whether the delimiter was found. -/
def Stream.readTo (m : Stream) : Bytes → Outcome (Bytes × Bytes × Bool)
  | [] => .ok ([], [], false)
  | 92 :: rest => match rest with
    | [] => .throws
    | d :: rest => if m.esc d then (m.readTo rest).bind fun r => .ok (92 :: d :: r.1, r.2) else .throws
  | c :: rest => if c = 93 then .ok ([c], rest, true) else (m.readTo rest).bind fun r => .ok (c :: r.1, r.2)

/-- `TokenIOStream::read_delimited(']')` (tools/src/hfst-proc/tokenizer.cc:189-249) on a stream that starts with `[`; the first
argument is what follows that bracket. -/
def Stream.readBlank (m : Stream) (rest : Bytes) : Outcome (Bytes × Bytes) :=
  (m.readTo rest).bind fun r =>
    if rest.head? = some 91 then
      match r.2.1 with
      | [] => .throws
      | c :: rest' => if c ≠ 93 then .throws else .ok (91 :: r.1 ++ [c], rest')
    else if r.2.2 then .ok (91 :: r.1, r.2.1) else .throws

/-- `TokenIOStream::read_token` (tools/src/hfst-proc/tokenizer.cc:290-330). -/
def Stream.readToken (m : Stream) (s : Bytes) : Outcome (Option Tok × Bytes) :=
  match s with
  | [] => .ok (none, [])
  | c :: rest =>
    if m.esc c then
      if c = 91 then (m.readBlank rest).bind fun r => .ok (some (.blank r.1), r.2)
      else if c = 92 then m.makeToken rest true
      else if c = 60 then (m.makeToken s false).bind fun r => match r.1 with
        | some (.sym k e) => .ok (some (if m.isTag k then .sym k e else .reserved 60), r.2)
        | _ => .ok (some (.reserved 60), r.2)
      else .ok (some (.reserved c), rest)
    else m.makeToken s false

/-- `TokenIOStream::escape` (tools/src/hfst-proc/tokenizer.cc:357-368). -/
def Stream.escape (m : Stream) (b : Bytes) : Bytes := b.flatMap fun c => if m.esc c then [92, c] else [c]

/-- `TokenIOStream::token_to_string` and `put_token` (tools/src/hfst-proc/tokenizer.cc:401-427, 382-386). -/
def Stream.text (m : Stream) : Tok → Bytes
  | .sym k e => if e then 92 :: m.symbolString k else m.symbolString k
  | .char b => m.escape b
  | .blank b => b
  | .reserved c => [c]

/-- All the tokens of a text, as in the loops of the applicators (tools/src/hfst-proc/applicators.cc:69, 95, 256): up to the first
token of type `None`.  The first argument is the number of tokens still allowed. -/
def Stream.readAll (m : Stream) : Nat → Bytes → Outcome (List Tok)
  | 0, _ => .undefined
  | n + 1, s => (m.readToken s).bind fun r => match r.1 with
    | none => .ok []
    | some t => (m.readAll n r.2).bind fun ts => .ok (t :: ts)

/-- The stream for a table of symbols (tools/src/hfst-proc/tokenizer.cc:21-35, alphabet.cc:150-163). -/
def Stream.make (table : List Bytes) (raw : Bool) : Outcome Stream :=
  (Symbolizer.addAll table .empty).bind fun z => .ok ⟨table, z, raw⟩

end Hfst.Proc
