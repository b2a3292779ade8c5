import Verif.Model.OlFile
import Verif.Model.Utf8

/-!
# Optimized lookup: from the input string to symbol numbers

Model of `OlLetterTrie`, `Encoder` and `Transducer::initialize_input`
(libhfst/src/implementations/optimized-lookup/transducer.h, transducer.cc).

* A C string is the list of its bytes without the terminating NUL; the pointer is at the NUL if the list is empty.
* A vector with one entry for each `unsigned char` is a function.
* Symbol numbers are not limited to 16 bits; the theorems ask that there are fewer than 65535 symbols.
-/
namespace Hfst.Ol
open Hfst.Basic

/-- `OlLetterTrie` (libhfst/src/implementations/optimized-lookup/transducer.h:785-809). -/
inductive LetterTrie
  | node (letters : UInt8 → Option LetterTrie) (symbols : UInt8 → Nat)

/-- The member `letters` (libhfst/src/implementations/optimized-lookup/transducer.h:788). -/
def LetterTrie.letters : LetterTrie → UInt8 → Option LetterTrie
  | .node l _ => l

/-- The member `symbols` (libhfst/src/implementations/optimized-lookup/transducer.h:789). -/
def LetterTrie.symbols : LetterTrie → UInt8 → Nat
  | .node _ s => s

/-- The constructor (libhfst/src/implementations/optimized-lookup/transducer.h:792-795). -/
def LetterTrie.empty : LetterTrie := .node (fun _ => none) (fun _ => noSymbol)

/-- `v[c] = x` for a vector with an entry for each `unsigned char`
(used in libhfst/src/implementations/optimized-lookup/transducer.cc:247, 252). -/
def setAt {α : Type} (v : UInt8 → α) (c : UInt8) (x : α) : UInt8 → α := fun d => if d = c then x else v d

/-- `OlLetterTrie::add_string` (libhfst/src/implementations/optimized-lookup/transducer.cc:243-255).  For an empty string the byte
behind the terminating NUL is read. -/
def LetterTrie.add : LetterTrie → Bytes → Nat → Outcome LetterTrie
  | _, [], _ => .undefined
  | t, [c], k => .ok (.node t.letters (setAt t.symbols c k))
  | t, c :: d :: rest, k =>
    (((t.letters c).getD .empty).add (d :: rest) k).bind fun sub => .ok (.node (setAt t.letters c (some sub)) t.symbols)

/-- `OlLetterTrie::has_key_starting_with` (libhfst/src/implementations/optimized-lookup/transducer.cc:257-260). -/
def LetterTrie.hasKey (t : LetterTrie) (c : UInt8) : Bool := (t.letters c).isSome

/-- `OlLetterTrie::find_key` (libhfst/src/implementations/optimized-lookup/transducer.cc:262-277): the number and by how much the
pointer has moved.  At the terminating NUL the pointer moves behind it; going on from there is undefined. -/
def LetterTrie.find : LetterTrie → Bytes → Outcome (Nat × Nat)
  | t, [] => match t.letters 0 with
    | none => .ok (t.symbols 0, 1)
    | some _ => .undefined
  | t, c :: rest => match t.letters c with
    | none => .ok (t.symbols c, 1)
    | some sub => (sub.find rest).bind fun r =>
      if r.1 = noSymbol then .ok (t.symbols c, 1 + r.2 - 1) else .ok (r.1, 1 + r.2)

/-- `should_ascii_tokenize` (libhfst/src/implementations/optimized-lookup/transducer.cc:18-22). -/
def asciiTokenize (c : UInt8) : Bool := decide (c ≤ 127)

/-- The members of `Encoder` (libhfst/src/implementations/optimized-lookup/transducer.h:811-818). -/
structure Encoder where
  letters : LetterTrie
  ascii : UInt8 → Nat

/-- `Encoder::read_input_symbol` (libhfst/src/implementations/optimized-lookup/transducer.cc:286-299). -/
def Encoder.readSymbol (e : Encoder) (s : Bytes) (k : Nat) : Outcome Encoder :=
  let c := s.headD 0
  let a1 := if s.length = 1 ∧ asciiTokenize c = true ∧ e.letters.hasKey c = false then setAt e.ascii c k else e.ascii
  let a2 := if 1 < s.length ∧ asciiTokenize c = true ∧ a1 c ≠ noSymbol then setAt a1 c noSymbol else a1
  (e.letters.add s k).bind fun t => .ok ⟨t, a2⟩

/-- `Encoder::read_input_symbols` (libhfst/src/implementations/optimized-lookup/transducer.cc:279-284), from number `k` on. -/
def Encoder.readSymbols : List Bytes → Nat → Encoder → Outcome Encoder
  | [], _, e => .ok e
  | x :: xs, k, e => (e.readSymbol x k).bind fun e => Encoder.readSymbols xs (k + 1) e

/-- The constructor of `Encoder` (libhfst/src/implementations/optimized-lookup/transducer.h:821-826), for the first `n` symbols of
the table. -/
def Encoder.make (table : List Bytes) (n : Nat) : Outcome Encoder :=
  if table.length < n then .undefined else Encoder.readSymbols (table.take n) 0 ⟨.empty, fun _ => noSymbol⟩

/-- `Encoder::find_key` (libhfst/src/implementations/optimized-lookup/transducer.cc:301-311), for a pointer that is not at the
terminating NUL. -/
def Encoder.find (e : Encoder) (s : Bytes) : Outcome (Nat × Nat) :=
  let c := s.headD 0
  if asciiTokenize c = false ∨ e.ascii c = noSymbol then e.letters.find s
  else .ok (e.ascii c, 1)

/-- The loop of `Transducer::initialize_input` (libhfst/src/implementations/optimized-lookup/transducer.cc:313-343): `none` if the
tokenization failed, otherwise the numbers on the tape; and the symbol table and the encoder afterwards.  If the last character is
cut off, the loop goes on behind the terminating NUL.  The first argument is the number of rounds still allowed. -/
def initializeInput : Nat → Bytes → List Bytes → Encoder → Outcome (Option (List Nat) × List Bytes × Encoder)
  | 0, _, _, _ => .undefined
  | _ + 1, [], table, e => .ok (some [], table, e)
  | fuel + 1, c :: rest, table, e =>
    (e.find (c :: rest)).bind fun r =>
      if r.1 = noSymbol then
        let n := Utf8.nByteUtf8 c
        if n = 0 then .ok (none, table, e)
        else if (c :: rest).length < n then .undefined
        else
          let x := (c :: rest).take n
          (e.readSymbol x table.length).bind fun e' =>
            (initializeInput fuel ((c :: rest).drop n) (table ++ [x]) e').bind fun q =>
              .ok (q.1.map fun ks => table.length :: ks, q.2)
      else if (c :: rest).length < r.2 then .undefined
      else (initializeInput fuel ((c :: rest).drop r.2) table e).bind fun q => .ok (q.1.map fun ks => r.1 :: ks, q.2)

end Hfst.Ol
