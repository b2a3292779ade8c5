import Verif.Model.OlFile
import Verif.Model.Utf8

/-!
# What reading an input string means

The input is a list of bytes.  The symbols are in a table; the number of a symbol is its place in the table.  Only the first `n`
symbols can occur in the input, and those that were added later (from number `size` on).
-/
namespace Hfst.Ol
open Hfst.Basic

/-- `x` is an input symbol with the number `k`. -/
def Knows (n size : Nat) (table : List Bytes) (x : Bytes) (k : Nat) : Prop := (k < n ∨ size ≤ k) ∧ table[k]? = some x

/-- The input starts with no known symbol. -/
def Unknown (n size : Nat) (table : List Bytes) (s : Bytes) : Prop := ∀ x k, Knows n size table x k → ¬ x <+: s

/-- `x` is the longest known symbol that the input starts with, and `k` is its number (the last one, if the table has the symbol
twice). -/
structure Longest (n size : Nat) (table : List Bytes) (s x : Bytes) (k : Nat) : Prop where
  knows : Knows n size table x k
  starts : x <+: s
  longest : ∀ y k', Knows n size table y k' → y <+: s → y.length ≤ x.length
  last : ∀ k', Knows n size table x k' → k' ≤ k

/-- `Reads n size table s ks table'`: reading `s` gives the numbers `ks`, or `none` if it fails, and leaves the table `table'`. -/
inductive Reads (n size : Nat) : List Bytes → Bytes → Option (List Nat) → List Bytes → Prop
  | done {table : List Bytes} : Reads n size table [] (some []) table
  | known {table table' : List Bytes} {x rest : Bytes} {k : Nat} {ks : Option (List Nat)} :
      Longest n size table (x ++ rest) x k → Reads n size table rest ks table' →
      Reads n size table (x ++ rest) (ks.map fun l => k :: l) table'
  | new {table table' : List Bytes} {x rest : Bytes} {c : UInt8} {ks : Option (List Nat)} :
      Unknown n size table (x ++ rest) → x.head? = some c → x.length = Utf8.nByteUtf8 c →
      Reads n size (table ++ [x]) rest ks table' →
      Reads n size table (x ++ rest) (ks.map fun l => table.length :: l) table'
  | bad {table : List Bytes} {c : UInt8} {rest : Bytes} :
      Unknown n size table (c :: rest) → Utf8.nByteUtf8 c = 0 → Reads n size table (c :: rest) none table

/-- Reading `s` comes to a character that is not known and goes beyond the end of the input. -/
inductive CutOff (n size : Nat) : List Bytes → Bytes → Prop
  | here {table : List Bytes} {c : UInt8} {rest : Bytes} :
      Unknown n size table (c :: rest) → (c :: rest).length < Utf8.nByteUtf8 c → CutOff n size table (c :: rest)
  | known {table : List Bytes} {x rest : Bytes} {k : Nat} :
      Longest n size table (x ++ rest) x k → CutOff n size table rest → CutOff n size table (x ++ rest)
  | new {table : List Bytes} {x rest : Bytes} {c : UInt8} :
      Unknown n size table (x ++ rest) → x.head? = some c → x.length = Utf8.nByteUtf8 c →
      CutOff n size (table ++ [x]) rest → CutOff n size table (x ++ rest)

/-- A string of whole characters: each first byte tells how many bytes there are. -/
inductive Chars : Bytes → Prop
  | nil : Chars []
  | char {c : UInt8} {x rest : Bytes} : x.length + 1 = Utf8.nByteUtf8 c → Chars rest → Chars (c :: x ++ rest)

end Hfst.Ol
