import Verif.Spec.Transducer

/-!
# What shuffle is for

Specification of property C79.
-/
namespace Hfst.Trans
open Hfst.Basic

/-- `l` is made of `a` and `b`, whose pairs are put between each other in any way without changing their order. -/
inductive Interleaved : List (Sym × Sym) → List (Sym × Sym) → List (Sym × Sym) → Prop
  | nil : Interleaved [] [] []
  | left {p : Sym × Sym} {a b l : List (Sym × Sym)} : Interleaved a b l → Interleaved (p :: a) b (p :: l)
  | right {p : Sym × Sym} {a b l : List (Sym × Sym)} : Interleaved a b l → Interleaved a (p :: b) (p :: l)

/-- Every transition has the same symbol on both sides, and none has the unknown symbol, which would stand for two different
symbols. -/
def Recognizer (g : Graph) : Prop := ∀ s, ∀ a ∈ g.arcs s, a.inp = a.out ∧ a.inp ≠ unknown

/-- The symbol is in a string that `g` accepts. -/
def Occurs (g : Graph) (x : Sym) : Prop := ∃ l w, Means g l w ∧ (x, x) ∈ l

end Hfst.Trans
