import Verif.Model.FlagHarmonize
import Verif.Spec.FlagElim

/-!
# What harmonization of flags is for

Specification of property C92.  `Obeys` (all flags of a string let through) and `withoutFlags` are those of C80.
-/
namespace Hfst.FlagHarm
open Hfst.Basic Hfst.Trans

/-- The feature of the flag `x` ends in `suffix`. -/
def FlagOf (suffix : Sym) (x : Sym) : Prop := ∃ o f v, readFlag x = some (o, f ++ suffix, v)

/-- Flags are on both sides of a transition, or on none. -/
def TwoSided (g : Graph) : Prop :=
  ∀ s, ∀ a ∈ g.arcs s, (Flags.isDiacritic a.inp = true ∨ Flags.isDiacritic a.out = true) → a.inp = a.out

/-- No flag of the first transducer comes after one of the second without an ordinary symbol between them.  `seen`: there has been
a flag of the second transducer since the last ordinary symbol. -/
def OrderedFrom (seen : Prop) : List (Sym × Sym) → Prop
  | [] => True
  | p :: l => (seen → ¬ FlagOf "_1".toList p.1) ∧
    OrderedFrom (Flags.isDiacritic p.1 = true ∧ (seen ∨ FlagOf "_2".toList p.1)) l

/-- What is assumed of `remove_illegal_flag_paths` (libhfst/src/HfstTransducer.cc:4470-4541): it adds no sequence, and it
removes no sequence in which the flags are ordered.  The function recognises only flags with values, so the second part is assumed
only for sequences in which all flags have values. -/
structure RemovesIllegal (removeIllegal : Graph → Graph) : Prop where
  usual : ∀ g, Usual g → Usual (removeIllegal g)
  plain : ∀ g, Usual g → Plain g → Plain (removeIllegal g)
  sub : ∀ g l w, Usual g → Means (removeIllegal g) l w → Means g l w
  keep : ∀ g l w, Usual g → Means g l w → OrderedFrom False l →
    (∀ p ∈ l, Flags.isDiacritic p.1 = true → Flags.hasValue p.1 = true) → Means (removeIllegal g) l w

/-- Every symbol of the alphabet is on a transition, except the special symbols. -/
def Used (g : Graph) : Prop :=
  ∀ x ∈ g.alphabet, x = epsilon ∨ x = unknown ∨ x = identity ∨ ∃ s, ∃ a ∈ g.arcs s, x = a.inp ∨ x = a.out

/-- All flags on transitions have values. -/
def Valued (g : Graph) : Prop := ∀ s, ∀ a ∈ g.arcs s, Flags.isDiacritic a.inp = true → Flags.hasValue a.inp = true

/-- A transducer as the library makes it, with flags that are on both sides and all symbols in use. -/
structure Proper (g : Graph) : Prop where
  usual : Usual g
  plain : Plain g
  twoSided : TwoSided g
  used : Used g

/-- `g` accepts the sequence `p` of ordinary symbol pairs with a weight of at most `w` on a path whose flags let through. -/
def MeansObeying (g : Graph) (p : List (Sym × Sym)) (w : Int) : Prop :=
  ∃ l, Means g l w ∧ Obeys (l.map Prod.fst) ∧ withoutFlags l = p

end Hfst.FlagHarm
