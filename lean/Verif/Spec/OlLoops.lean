import Verif.Spec.OlLookup
import Verif.Spec.OlWalk

/-!
# When there are infinitely many runs for an input
-/
namespace Hfst.Ol
open Hfst.Basic

/-- A run from the start reads a beginning of `ks` and leads to a cycle of transitions that read nothing; the flags allow to go through the
cycle as often as one likes. -/
def Repeats (K : Kinds) (N : Net) (flags : Flags.FdState) (ks : List Nat) : Prop :=
  ∃ l c q, NRun K N 0 l q ∧ readBy l <+: ks ∧ NRun K N q c q ∧ c ≠ [] ∧ readBy c = [] ∧
    ∀ n, K.fd.passes flags ((l ++ (List.replicate n c).flatten).map (·.1.input)) = some true

/-- The same for a graph without flags: a path from the start reads a beginning of the input and leads to a cycle of epsilons. -/
def LoopsOn (g : Graph) (input : List Sym) : Prop :=
  ∃ l c q, GPath g 0 l q ∧ ((l.map (·.inp)).filter fun x => decide (x ≠ Basic.epsilon)) <+: input ∧ GPath g q c q ∧ c ≠ [] ∧
    ∀ a ∈ c, a.inp = Basic.epsilon

end Hfst.Ol
