import Verif.Model.Rules
import Verif.Spec.Transducer

/-!
# What rules mean

Specification of properties C76-C78.
-/
namespace Hfst.Trans
open Hfst.Basic

/-- Symbol pairs that stand for themselves: no unknown or identity symbols and no other symbols of the form `@_..._@`, except
that one side can be epsilon. -/
def Literal (ps : List (Sym × Sym)) : Prop :=
  ∀ p ∈ ps, p ≠ (epsilon, epsilon) ∧ p.1 ≠ [] ∧ p.2 ≠ [] ∧ (isSpecial p.1 = true → p.1 = epsilon) ∧
    (isSpecial p.2 = true → p.2 = epsilon)

/-- A sequence of pairs of `al`. -/
def Over (al l : List (Sym × Sym)) : Prop := ∀ p ∈ l, p ∈ al

/-- `x` ends with a sequence of the transducer `c`. -/
def EndsIn (c : Graph) (x : List (Sym × Sym)) : Prop := ∃ a b, x = a ++ b ∧ ∃ v, Means c b v

/-- `y` begins with a sequence of the transducer `c`. -/
def StartsIn (c : Graph) (y : List (Sym × Sym)) : Prop := ∃ a b, y = a ++ b ∧ ∃ v, Means c a v

/-- In `l`, wherever the left context ends and the right context starts, a symbol with a mapping is mapped as in `ms`. -/
def MappedThere (left right : Graph) (ms l : List (Sym × Sym)) : Prop :=
  ∀ x p y, l = x ++ p :: y → EndsIn left x → StartsIn right y → (∃ m ∈ ms, m.1 = p.1) → p ∈ ms

/-- In `l`, the mappings `ms` only occur after the left context and before the right context. -/
def MappedOnlyThere (left right : Graph) (ms l : List (Sym × Sym)) : Prop :=
  ∀ x p y, l = x ++ p :: y → p ∈ ms → EndsIn left x ∧ StartsIn right y

/-- One of the contexts fits: its left side ends `x` and its right side starts `y`. -/
def InContext (contexts : List (Graph × Graph)) (x y : List (Sym × Sym)) : Prop :=
  ∃ c ∈ contexts, EndsIn c.1 x ∧ StartsIn c.2 y

/-- What a coercion is about: everything, or the sequences that agree with the mapping on the input side (`surface`) or on the
output side (`deep`). -/
def Candidate (d : Direction) (mapping : Graph) (c : List (Sym × Sym)) : Prop :=
  match d with
  | .none => True
  | .surface => ∃ u v, Means mapping u v ∧ ins u = ins c
  | .deep => ∃ u v, Means mapping u v ∧ outs u = outs c

/-- In `l`, the mapping only occurs in one of the contexts. -/
def OnlyInContext (contexts : List (Graph × Graph)) (mapping : Graph) (l : List (Sym × Sym)) : Prop :=
  ∀ x c y, l = x ++ c ++ y → (∃ v, Means mapping c v) → InContext contexts x y

/-- In `l`, what stands in one of the contexts and is a candidate belongs to the mapping. -/
def AlwaysInContext (d : Direction) (contexts : List (Graph × Graph)) (mapping : Graph) (l : List (Sym × Sym)) : Prop :=
  ∀ x c y, l = x ++ c ++ y → InContext contexts x y → Candidate d mapping c → ∃ v, Means mapping c v

/-- `s` is over the symbols `syms`, and no part of it is a string of `D`. -/
def Untouched (D : List Sym → Prop) (syms s : List Sym) : Prop :=
  (∀ x ∈ s, x ∈ syms) ∧ ∀ a b c, s = a ++ b ++ c → ¬ D b

/-- `Rewrites D syms T s s' w`: some parts of `s` are replaced according to `T` (`T u u' v`: `u` by `u'` for at most `v`), and the
parts in between are over `syms`, have no part in `D` and are kept.  The weights add up to at most `w`. -/
inductive Rewrites (D : List Sym → Prop) (syms : List Sym) (T : List Sym → List Sym → Int → Prop) :
    List Sym → List Sym → Int → Prop
  | rest {n : List Sym} {w : Int} : Untouched D syms n → 0 ≤ w → Rewrites D syms T n n w
  | more {n u u' s s' : List Sym} {v w w' : Int} : Untouched D syms n → T u u' v → Rewrites D syms T s s' w → v + w ≤ w' →
      Rewrites D syms T (n ++ u ++ s) (n ++ u' ++ s') w'

end Hfst.Trans
