import Verif.Model.Sfst

/-!
# What a transducer of the SFST back-end says

Independent of how the back-end computes: a transducer accepts a sequence of label pairs if some path from
the root to a final node reads it, where arcs labelled 0:0 read nothing; and it relates two strings if they
are the lower and the upper side of an accepted sequence.
-/

namespace Hfst.Sfst

/-- A path from `k` reads `w` and ends in a final state; arcs labelled 0:0 read nothing. -/
inductive Accepts {K : Type} (step : K → Label → K → Prop) (fin : K → Prop) : K → List Label → Prop
  | stop {k : K} : fin k → Accepts step fin k []
  | skip {k k' : K} {w : List Label} :
      step k ⟨0, 0⟩ k' → Accepts step fin k' w → Accepts step fin k w
  | read {k k' : K} {l : Label} {w : List Label} :
      l ≠ ⟨0, 0⟩ → step k l k' → Accepts step fin k' w → Accepts step fin k (l :: w)

/-- The arcs of a graph. -/
def Graph.Step (g : Graph) (n : Nat) (l : Label) (m : Nat) : Prop := (l, m) ∈ (g.node n).arcs

/-- What is accepted from a node of a graph. -/
def Graph.Takes (g : Graph) (n : Nat) (w : List Label) : Prop :=
  Accepts g.Step (fun m => (g.node m).final = true) n w

/-- The label sequences a transducer accepts. -/
def Fst.Takes (F : Fst) (w : List Label) : Prop := F.graph.Takes 0 w

/-- The lower side of a sequence of labels: its lower symbols without epsilons. -/
def lowers (w : List Label) : List Nat := (w.map (fun l => l.lower)).filter (fun c => c ≠ 0)

/-- The upper side. -/
def uppers (w : List Label) : List Nat := (w.map (fun l => l.upper)).filter (fun c => c ≠ 0)

/-- The pairs of strings a transducer relates. -/
def Fst.Relates (F : Fst) (x y : List Nat) : Prop := ∃ w, F.Takes w ∧ lowers w = x ∧ uppers w = y

/-- All arcs lead to nodes of the transducer. -/
def Graph.Closed (g : Graph) : Prop :=
  0 < g.size ∧ ∀ n, n < g.size → ∀ a ∈ (g.node n).arcs, a.2 < g.size

/-- A node reached from another. -/
inductive Graph.Reach (g : Graph) : Nat → Nat → Prop
  | refl {n : Nat} : Graph.Reach g n n
  | step {n m p : Nat} {l : Label} : g.Step n l m → Graph.Reach g m p → Graph.Reach g n p

/-- From the root on there are no arcs 0:0 and no two arcs with the same label. -/
def Graph.Deterministic (g : Graph) : Prop :=
  ∀ n, g.Reach 0 n →
    (∀ a ∈ (g.node n).arcs, a.1 ≠ ⟨0, 0⟩) ∧ ((g.node n).arcs.map (fun a => a.1)).Nodup

/-- Deterministic, no two nodes from the root on accept the same, and no arc leads to a node from which
nothing is accepted. -/
def Graph.Minimal (g : Graph) : Prop :=
  g.Deterministic ∧
  (∀ n m, g.Reach 0 n → g.Reach 0 m → (∀ w, g.Takes n w ↔ g.Takes m w) → n = m) ∧
  (∀ n l m, g.Reach 0 n → g.Step n l m → ∃ w, g.Takes m w)

/-- A transducer whose marks "deterministic" and "minimised" are deserved. -/
structure Fst.Honest (F : Fst) : Prop where
  closed : F.graph.Closed
  deterministic : F.deterministic = true → F.graph.Deterministic
  minimised : F.minimised = true → F.graph.Minimal

/-- Each node is reached by at most one arc, and arcs lead to nodes made later: the transducer is a tree. -/
def Graph.Tree (g : Graph) : Prop :=
  g.Closed ∧ (∀ n, n < g.size → ∀ a ∈ (g.node n).arcs, n < a.2) ∧
  ∀ n, n < g.size → ∀ a ∈ (g.node n).arcs, ∀ n', n' < g.size → ∀ a' ∈ (g.node n').arcs,
    a.2 = a'.2 → n = n' ∧ a.1 = a'.1

/-- What a path says: its pairs without 0:0. -/
def said (p : List Label) : List Label := p.filter (fun l => decide (l ≠ ⟨0, 0⟩))

/-- Any number of sequences one after the other. -/
inductive Repeated (P : List Label → Prop) : List Label → Prop
  | none : Repeated P []
  | more {u v : List Label} : P u → Repeated P v → Repeated P (u ++ v)

/-- `n` sequences one after the other. -/
inductive Times (P : List Label → Prop) : Nat → List Label → Prop
  | zero : Times P 0 []
  | succ {n : Nat} {u v : List Label} : Times P n u → P v → Times P (n + 1) (u ++ v)

/-- `w` is `v` with any number of `l` put in anywhere. -/
inductive Inserted (l : Label) : List Label → List Label → Prop
  | done : Inserted l [] []
  | keep {a : Label} {v w : List Label} : Inserted l v w → Inserted l (a :: v) (a :: w)
  | put {v w : List Label} : Inserted l v w → Inserted l v (l :: w)

/-- A string with the symbol `c` replaced by `nc` everywhere; replacing by epsilon (0) deletes. -/
def replaced (c nc : Nat) (x : List Nat) : List Nat :=
  (x.map (fun d => if d = c then nc else d)).filter (fun d => d ≠ 0)

end Hfst.Sfst
