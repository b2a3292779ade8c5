import Verif.Model.Graph

/-!
# What a transducer means: paths and accepted sequences

Specification used by the properties about graphs.  It mentions only the states, transitions and final weights of
a graph.
-/
namespace Hfst.Basic

/-- There is a path from `s` to `q` whose transitions carry the symbol pairs `l` and whose weights add up to
`w`. -/
inductive Path (g : Graph) : Nat → List (Sym × Sym) → Int → Nat → Prop
  | nil (s : Nat) : Path g s [] 0 s
  | cons {s q : Nat} {a : Arc} {l : List (Sym × Sym)} {w : Int} :
      a ∈ g.arcs s → Path g a.target l w q → Path g s ((a.inp, a.out) :: l) (a.weight + w) q

/-- `g` accepts the sequence of symbol pairs `l` with weight `w` (on some path). -/
def Accepts (g : Graph) (l : List (Sym × Sym)) (w : Int) : Prop :=
  ∃ q v f, Path g 0 l v q ∧ g.final q = some f ∧ w = v + f

/-- Every transition leads to an existing state, every final state exists, and there is a state 0. -/
structure WF (g : Graph) : Prop where
  nonempty : 0 < g.states.length
  targets : ∀ s, ∀ a ∈ g.arcs s, a.target < g.states.length
  finals : ∀ s w, g.final s = some w → s < g.states.length

/-- Every symbol on a transition is in the alphabet, and so are the three special symbols. -/
structure AlphaOK (g : Graph) : Prop where
  arcs : ∀ s, ∀ a ∈ g.arcs s, a.inp ∈ g.alphabet ∧ a.out ∈ g.alphabet
  eps : epsilon ∈ g.alphabet
  unk : unknown ∈ g.alphabet
  idn : identity ∈ g.alphabet

theorem Path.append {g : Graph} {s t q : Nat} {l l' : List (Sym × Sym)} {w w' : Int}
    (h : Path g s l w t) (h' : Path g t l' w' q) : Path g s (l ++ l') (w + w') q := by
  induction h with
  | nil s => simpa using h'
  | cons ha _ ih => rw [List.cons_append, Int.add_assoc]; exact .cons ha (ih h')

theorem Path.single {g : Graph} {s : Nat} {a : Arc} (h : a ∈ g.arcs s) :
    Path g s [(a.inp, a.out)] a.weight a.target := by
  have := Path.cons h (Path.nil a.target)
  simpa using this

theorem Path.exists_lt {g : Graph} (hg : WF g) {s q : Nat} {l : List (Sym × Sym)} {w : Int}
    (h : Path g s l w q) (hs : s < g.states.length) : q < g.states.length := by
  induction h with
  | nil s => exact hs
  | cons ha _ ih => exact ih (hg.targets _ _ ha)

end Hfst.Basic
