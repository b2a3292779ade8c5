import Verif.Model.ToolSubstitute

/-!
# What hfst-substitute is for

The help text (tools/src/hfst-substitute.cc:151-201): a label is "a symbol name in single arc in transducer, or colon separated pair
defining an arc", and "LABELFILE is a 2 column tsv file where col 1 is FLABEL and col 2 gives TLABEL specifications".
-/
namespace Hfst.Subst
open Hfst.StdString Hfst.Basic

/-- The text ends in a backslash that is not itself written with a backslash (tools/src/hfst-substitute.cc:103-107). -/
def Escaped (a : Str) : Prop := ∃ p, a = p ++ ['\\'] ∧ ¬ ∃ q, p = q ++ ['\\']

/-- The label is two texts with a colon between them that is not escaped (tools/src/hfst-substitute.cc:183-184). -/
def Divides (label a b : Str) : Prop := label = a ++ ':' :: b ∧ a ≠ [] ∧ b ≠ [] ∧ ¬ Escaped a

/-- The label is divided at the first place where it can be divided (tools/src/hfst-substitute.cc:183-184). -/
def DividesFirst (label a b : Str) : Prop := Divides label a b ∧ ∀ a' b', Divides label a' b' → a.length ≤ a'.length

/-- The label is the pair of symbols; "@0@" stands for epsilon (tools/src/hfst-substitute.cc:183-184, 250-255). -/
def IsPair (label : Str) (p : Sym × Sym) : Prop :=
  ∃ a b, DividesFirst label a b ∧ p.1 = (if a = "@0@".toList then epsilon else a) ∧ p.2 = (if b = "@0@".toList then epsilon else b)

/-- A label on which the tool does not end: its second character is a colon after a backslash, and something comes after the colon
(tools/src/hfst-substitute.cc:103-116). -/
def Hangs (label : Str) : Prop := ∃ c rest, label = '\\' :: ':' :: c :: rest

/-- The line has the two columns: the first tab is between them (tools/src/hfst-substitute.cc:186-187). -/
def Columns (l x y : Str) : Prop := '\t' ∉ x ∧ '\n' ∉ x ∧ '\n' ∉ y ∧ (l = x ++ '\t' :: y ∨ l = x ++ '\t' :: y ++ ['\n'])

/-- What a line asks for: a pair for a pair if both columns are pairs, and a symbol for a symbol otherwise
(tools/src/hfst-substitute.cc:183-187). -/
def Asks (l : Str) : Request → Prop
  | .label x y => Columns l x y ∧ x ≠ [] ∧ y ≠ [] ∧ ¬ Hangs x ∧ ¬ Hangs y ∧ ¬ ((∃ p, IsPair x p) ∧ ∃ q, IsPair y q)
  | .pair p q => ∃ x y, Columns l x y ∧ ¬ Hangs x ∧ ¬ Hangs y ∧ IsPair x p ∧ IsPair y q

/-- A line that is ignored: an empty one or a comment without tabs (tools/src/hfst-substitute.cc:669-679). -/
def Ignored (l : Str) : Prop := l = ['\n'] ∨ ∃ rest, '\t' ∉ rest ∧ l = '#' :: rest

/-- The requests of the lines of a file, in their order; every line is ignored or asks for something
(tools/src/hfst-substitute.cc:666-770). -/
inductive Requests : List Str → List Request → Prop
  | nil : Requests [] []
  | ignored {l ls rs} : Ignored l → Requests ls rs → Requests (l :: ls) rs
  | asks {l ls r rs} : Asks l r → Requests ls rs → Requests (l :: ls) (r :: rs)

/-- The last request for the symbol `x` is to replace it with `y` (tools/src/hfst-substitute.cc:171-172). -/
def LastLabel (rs : List Request) (x y : Sym) : Prop :=
  ∃ before after, rs = before ++ .label x y :: after ∧ ∀ y', .label x y' ∉ after

/-- The last request for the pair `p` is to replace it with `q` (tools/src/hfst-substitute.cc:171-172). -/
def LastPair (rs : List Request) (p q : Sym × Sym) : Prop :=
  ∃ before after, rs = before ++ .pair p q :: after ∧ ∀ q', .pair p q' ∉ after

end Hfst.Subst
