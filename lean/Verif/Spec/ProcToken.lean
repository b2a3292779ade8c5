import Verif.Model.ProcToken

/-!
# hfst-proc: the tokens of a text

The longest symbol of the transducer that the text starts with is the next token.  Where there is none, the next character is.
Some characters are reserved, for text that is not to be analysed (`[ .. ]`), for escaping the next character, and for the
format of the analyses.
-/
namespace Hfst.Proc

/-- The number of a symbol; if the table has it twice, the last one. -/
def IsSymbol (table : List Bytes) (k : Nat) (x : Bytes) : Prop :=
  x ≠ [] ∧ table[k]? = some x ∧ ∀ k', table[k']? = some x → k' ≤ k

/-- The longest symbol of the table that the text starts with. -/
def LongestSymbol (table : List Bytes) (s : Bytes) (k : Nat) (x : Bytes) : Prop :=
  IsSymbol table k x ∧ x <+: s ∧ ∀ y ∈ table, y <+: s → y.length ≤ x.length

/-- The text starts with no symbol of the table. -/
def NoSymbol (table : List Bytes) (s : Bytes) : Prop := ∀ y ∈ table, y ≠ [] → ¬ y <+: s

/-- The text does not stop in the middle of a symbol of the table. -/
def NotCut (table : List Bytes) (s : Bytes) : Prop := ∀ y ∈ table, s <+: y → y = s

/-- One character in UTF-8. -/
def IsChar (x : Bytes) : Prop :=
  ∃ c r, x = c :: r ∧ (∀ b ∈ r, 128 ≤ b ∧ b < 192) ∧
    ((c < 128 ∧ r.length = 0) ∨ (192 ≤ c ∧ c < 224 ∧ r.length = 1) ∨ (224 ≤ c ∧ c < 240 ∧ r.length = 2) ∨
      (240 ≤ c ∧ c < 248 ∧ r.length = 3))

/-- `[ ] { } ^ $ / \ @ < >` -/
def Reserved (c : UInt8) : Prop := ∃ ch ∈ "[]{}^$/\\@<>".toList, c.toNat = ch.toNat

/-- Text inside brackets: no closing bracket, and after each backslash a reserved character. -/
inductive Inside : Bytes → Prop
  | nil : Inside []
  | plain {c : UInt8} {b : Bytes} : c ≠ 92 → c ≠ 93 → Inside b → Inside (c :: b)
  | escaped {c : UInt8} {b : Bytes} : Reserved c → Inside b → Inside (92 :: c :: b)

/-- A superblank: text in brackets, or in double brackets. -/
def IsBlank (b : Bytes) : Prop :=
  ∃ i, Inside i ∧ ((b = 91 :: i ++ [93] ∧ i.head? ≠ some 91) ∨ b = 91 :: 91 :: i ++ [93, 93])

/-- The tokens of a text.  In raw text no character is reserved. -/
inductive Tokens (table : List Bytes) (raw : Bool) : Bytes → List Tok → Prop
  | done : Tokens table raw [] []
  | symbol {x r : Bytes} {k : Nat} {ts : List Tok} : (raw = false → ∀ c, x.head? = some c → ¬ Reserved c) → 0 < k →
      NotCut table (x ++ r) → LongestSymbol table (x ++ r) k x → Tokens table raw r ts →
      Tokens table raw (x ++ r) (.sym k false :: ts)
  | char {x r : Bytes} {ts : List Tok} : (raw = false → ∀ c, x.head? = some c → ¬ Reserved c) → IsChar x →
      NotCut table (x ++ r) → NoSymbol table (x ++ r) → Tokens table raw r ts → Tokens table raw (x ++ r) (.char x :: ts)
  | escapedSymbol {x r : Bytes} {k : Nat} {ts : List Tok} : raw = false → 0 < k →
      NotCut table (x ++ r) → LongestSymbol table (x ++ r) k x → Tokens table raw r ts →
      Tokens table raw (92 :: (x ++ r)) (.sym k true :: ts)
  | escapedChar {c : UInt8} {r : Bytes} {ts : List Tok} : raw = false → Reserved c →
      NotCut table (c :: r) → NoSymbol table (c :: r) → Tokens table raw r ts →
      Tokens table raw (92 :: c :: r) (.char [c] :: ts)
  | blank {b r : Bytes} {ts : List Tok} : raw = false → IsBlank b → Tokens table raw r ts →
      Tokens table raw (b ++ r) (.blank b :: ts)
  | tag {x r : Bytes} {k : Nat} {ts : List Tok} : raw = false → 0 < k → x.head? = some 60 → x.getLast? = some 62 →
      NotCut table (x ++ r) → LongestSymbol table (x ++ r) k x → Tokens table raw r ts →
      Tokens table raw (x ++ r) (.sym k false :: ts)
  | less {r : Bytes} {ts : List Tok} : raw = false → NotCut table (60 :: r) →
      (NoSymbol table (60 :: r) ∨ ∃ k, 0 < k ∧ LongestSymbol table (60 :: r) k [60]) → Tokens table raw r ts →
      Tokens table raw (60 :: r) (.reserved 60 :: ts)
  | reserved {c : UInt8} {r : Bytes} {ts : List Tok} : raw = false → Reserved c → c ≠ 91 → c ≠ 92 → c ≠ 60 →
      Tokens table raw r ts → Tokens table raw (c :: r) (.reserved c :: ts)

end Hfst.Proc
