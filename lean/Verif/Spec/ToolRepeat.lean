import Verif.Model.ToolRepeat

/-!
# What hfst-repeat is for

The help text (tools/src/hfst-repeat.cc:69-79): "repeat at least FNUM times", "repeat at most TNUM times"; "FNUM and TNUM must be positive
integers or infinities as parsed by strtod(3); if FNUM is omitted it defaults to 0, if TNUM is omitted it defaults to Inf".
-/
namespace Hfst.Repeat
open Hfst.StdString Hfst.Basic

/-- The relation repeated `i` times (tools/src/hfst-repeat.cc:64). -/
def Power (R : List Sym → List Sym → Prop) : Nat → List Sym → List Sym → Prop
  | 0, u, v => u = [] ∧ v = []
  | i + 1, u, v => ∃ u1 v1 u2 v2, R u1 v1 ∧ Power R i u2 v2 ∧ u = u1 ++ u2 ∧ v = v1 ++ v2

/-- What is assumed of the functions of the library; their parameters have 32 bits
(functions called in tools/src/hfst-repeat.cc:199, 220, 226). -/
structure Lawful {T : Type} (L : Library T) (meaning : T → List Sym → List Sym → Prop) : Prop where
  star : ∀ t u v, meaning (L.star t) u v ↔ ∃ i, Power (meaning t) i u v
  nPlus : ∀ n t, n < 4294967296 → ∀ u v, meaning (L.nPlus n t) u v ↔ ∃ i, n ≤ i ∧ Power (meaning t) i u v
  nToK : ∀ n k t, n ≤ k → k < 4294967296 → ∀ u v, meaning (L.nToK n k t) u v ↔ ∃ i, n ≤ i ∧ i ≤ k ∧ Power (meaning t) i u v

/-- The run writes each transducer of the archive, in its order, repeated any number of times that is allowed
(tools/src/hfst-repeat.cc:69-71). -/
def Repeats {T : Type} (meaning : T → List Sym → List Sym → Prop) (allowed : Nat → Prop) (gs : List T) (r : Tools.Run T) : Prop :=
  ∃ change : T → T, r = ⟨gs.map change, .success⟩ ∧ ∀ g u v, meaning (change g) u v ↔ ∃ i, allowed i ∧ Power (meaning g) i u v

end Hfst.Repeat
