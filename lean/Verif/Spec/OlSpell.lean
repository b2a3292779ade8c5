import Verif.Spec.OlLookup
import Verif.Spec.OlEncode

/-!
# What a spell checker should do

The lexicon and the error model are nets.
-/
namespace Hfst.Ol
open Hfst.Basic

/-- Reading a string when the symbols are fixed: the longest known symbol is taken; a character that is not known is read as `other`. -/
inductive Spells (n : Nat) (table : List Bytes) (other : Nat) : Bytes → List Nat → Prop
  | done : Spells n table other [] []
  | known {x rest : Bytes} {k : Nat} {ks : List Nat} : Longest n table.length table (x ++ rest) x k → Spells n table other rest ks →
      Spells n table other (x ++ rest) (k :: ks)
  | other {c : UInt8} {x rest : Bytes} {ks : List Nat} : other ≠ noSymbol → Unknown n table.length table (c :: x ++ rest) →
      x.length + 1 = Utf8.nByteUtf8 c → Spells n table other rest ks → Spells n table other (c :: x ++ rest) (other :: ks)

/-- The net accepts the symbols, and the flags allow it. -/
def Recognizes (K : Kinds) (N : Net) (ks : List Nat) : Prop :=
  ∃ l q w, NRun K N 0 l q ∧ N.final q = some w ∧ readBy l = ks ∧
    K.fd.passes (.init K.fd.numFeatures) (l.map (·.1.input)) = some true

/-- The symbols that a run writes. -/
def wroteBy (l : List (NArc × Option Nat)) : List Nat := (l.map (·.1.output)).filter fun x => decide (x ≠ 0)

/-- The text of symbols: epsilon and flags are not shown. -/
def textOf (K : Kinds) (xs : List Nat) : Bytes :=
  xs.flatMap fun x => if x = 0 ∨ (K.fd.getOperation x).isSome = true then [] else (K.al.table[x]?).getD []

/-- The error model turns `ks` into something that the lexicon reads and writes as `s`; `w` is the sum of the weights. -/
def Correction (K : Kinds) (E : Net) (K' : Kinds) (L : Net) (ks : List Nat) (s : Bytes) (w : Int) : Prop :=
  ∃ m p u l q v, NRun K E 0 m p ∧ E.final p = some u ∧ readBy m = ks ∧ NRun K' L 0 l q ∧ L.final q = some v ∧
    (wroteBy m).map (fun x => K.al.table[x]?) = (readBy l).map (fun x => K'.al.table[x]?) ∧
    K'.fd.passes (.init K'.fd.numFeatures) (l.map (·.1.input)) = some true ∧
    s = textOf K' (l.map (·.1.output)) ∧ w = weightBy m + u + (weightBy l + v)

/-- No cycle of transitions reads nothing: the states can be ranked. -/
def NoFreeCycle (K : Kinds) (N : Net) : Prop :=
  ∃ rank : Nat → Nat, ∀ q < N.size, ∀ a ∈ N.arcs q, K.Free a → rank a.target < rank q

end Hfst.Ol
