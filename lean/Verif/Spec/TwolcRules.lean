import Verif.Model.TwolcRules

/-!
# What the rules of a two-level grammar mean

Only the types for the text of a grammar and the languages of its expressions are taken from the model.
-/
namespace Hfst.TwolcRule
open Hfst.Basic (Sym)

/-- The letters that a pair string can have: the pairs of the alphabet, and the pair for all symbols that the grammar does not have. -/
def Valid (L : Lib) : Letter → Prop
  | .pair i o => L.declared i o ∨ (i = otherSym ∧ o = otherSym)
  | .diamond => False

/-- A pair string over the alphabet. -/
def Pairs (L : Lib) (w : List Letter) : Prop := ∀ x ∈ w, Valid L x

/-- Two strings have the same input symbols; pairs that read nothing may be left out of the first. -/
inductive SameInputs : List Letter → List Letter → Prop
  | nil : SameInputs [] []
  | diamond {v u} : SameInputs v u → SameInputs (.diamond :: v) (.diamond :: u)
  | pair {i o o' v u} : SameInputs v u → SameInputs (.pair i o :: v) (.pair i o' :: u)
  | drop {o v u} : SameInputs v u → SameInputs (.pair zeroSym o :: v) u

/-- The library computes what its operations are called. -/
structure Lib.Right (L : Lib) : Prop where
  nothing : ∀ w, ¬ L.lang L.nothing w
  pair : ∀ i o, L.declared i o → ∀ w, L.lang (L.pair i o) w ↔ w = [.pair i o]
  any : ∀ w, L.lang L.any w ↔ ∃ x, Valid L x ∧ w = [x]
  diamond : ∀ w, L.lang L.diamond w ↔ w = [.diamond]
  disjunct : ∀ a b w, L.lang (L.disjunct a b) w ↔ L.lang a w ∨ L.lang b w
  concatenate : ∀ a b w, L.lang (L.concatenate a b) w ↔ ∃ u v, L.lang a u ∧ L.lang b v ∧ w = u ++ v
  intersect : ∀ a b w, L.lang (L.intersect a b) w ↔ L.lang a w ∧ L.lang b w
  subtract : ∀ a b w, L.lang (L.subtract a b) w ↔ L.lang a w ∧ ¬ L.lang b w
  star : ∀ a w, L.lang (L.star a) w ↔ ∃ l : List (List Letter), (∀ v ∈ l, L.lang a v) ∧ w = l.flatten
  dropDiamonds : ∀ a w, L.lang (L.dropDiamonds a) w ↔ ∃ v, L.lang a v ∧ w = v.filter (· ≠ .diamond)
  abstracted : ∀ a u, (∀ x ∈ u, Valid L x ∨ x = .diamond) → (L.lang (L.abstracted a) u ↔ ∃ v, L.lang a v ∧ SameInputs v u)
  common : ∀ a b, L.common a b = true ↔ ∃ w, L.lang a w ∧ L.lang b w
  empty : ∀ a, L.empty a = true ↔ ∀ w, ¬ L.lang a w

variable {L : Lib}

/-- Between `l` and `r` is one of the places that the contexts describe: `l` ends with a left context and `r` begins with the right context
that belongs to it. -/
def InContext (cs : List (L.T × L.T)) (l r : List Letter) : Prop :=
  ∃ c ∈ cs, (∃ l₁ l₂, l = l₁ ++ l₂ ∧ L.lang c.1 l₂) ∧ ∃ r₁ r₂, r = r₁ ++ r₂ ∧ L.lang c.2 r₁

/-- The rule is about the place between `l` and `r`: one of its contexts is there, and none of its exceptions. -/
def Source.Applies (s : Source L) (l r : List Letter) : Prop := InContext s.contexts l r ∧ ¬ InContext s.exceptions l r

/-- The rule has the pair `p` as a center and allows it only in its contexts. -/
def Source.Restricts (s : Source L) (p : Sym × Sym) : Prop :=
  (s.op = .right ∨ s.op = .leftRight) ∧ ∃ ps, s.center = .pairs ps ∧ p ∈ ps

/-- The rule has the pair `p` as a center and demands it in its contexts. -/
def Source.Forces (s : Source L) (p : Sym × Sym) : Prop :=
  (s.op = .left ∨ s.op = .leftRight) ∧ ∃ ps, s.center = .pairs ps ∧ p ∈ ps

/-- The rule has the pair `p` as a center and forbids it in its contexts. -/
def Source.Forbids (s : Source L) (p : Sym × Sym) : Prop := s.op = .notLeft ∧ ∃ ps, s.center = .pairs ps ∧ p ∈ ps

/-- The pair `p` as a string. -/
def one (p : Sym × Sym) : List Letter := [.pair p.1 p.2]

/-- The string obeys a rule whose center is an expression. -/
def Source.ReObeyed (s : Source L) (w : List Letter) : Prop :=
  ∀ c, s.center = .re c → ∀ l m r, w = l ++ m ++ r →
    (s.op = .right ∨ s.op = .leftRight → L.lang c m → s.Applies l r) ∧
    (s.op = .left ∨ s.op = .leftRight → s.Applies l r → (∃ v, L.lang c v ∧ SameInputs v m) → L.lang c m) ∧
    (s.op = .notLeft → L.lang c m → ¬ s.Applies l r)

/-- What the rules that restrict the pair `p` say together: where it stands one of them must be about the place. -/
def RightObeyed (rs : List (Source L)) (w : List Letter) : Prop :=
  ∀ p, (∃ s ∈ rs, s.Restricts p) → ∀ l r, w = l ++ one p ++ r → ∃ s ∈ rs, s.Restricts p ∧ s.Applies l r

/-- What they say if each of them is taken for itself. -/
def RightObeyedEach (rs : List (Source L)) (w : List Letter) : Prop :=
  ∀ s ∈ rs, ∀ p, s.Restricts p → ∀ l r, w = l ++ one p ++ r → s.Applies l r

/-- What the rules that demand a pair say: at the places that they are about, its input symbol has its output symbol. -/
def LeftObeyed (rs : List (Source L)) (w : List Letter) : Prop :=
  ∀ s ∈ rs, ∀ p, s.Forces p → ∀ l m r, w = l ++ m ++ r → s.Applies l r → SameInputs (one p) m → m = one p

/-- What the rules that forbid a pair, and those with expressions, say. -/
def OtherObeyed (rs : List (Source L)) (w : List Letter) : Prop :=
  (∀ s ∈ rs, ∀ p, s.Forbids p → ∀ l r, w = l ++ one p ++ r → ¬ s.Applies l r) ∧ ∀ s ∈ rs, s.ReObeyed w

/-- The text of a rule is good: its centers are in the alphabet, and its expressions are about pair strings over the alphabet. -/
def Source.Good (s : Source L) : Prop :=
  (∀ ps, s.center = .pairs ps → ∀ p ∈ ps, L.declared p.1 p.2) ∧
  (∀ c, s.center = .re c → ∀ m, L.lang c m → Pairs L m) ∧
  ∀ c ∈ s.contexts ++ s.exceptions, (∀ w, L.lang c.1 w → Pairs L w) ∧ ∀ w, L.lang c.2 w → Pairs L w

/-- The string is accepted by all transducers that were stored. -/
def AcceptedByAll (ts : List (Sym × L.T)) (w : List Letter) : Prop := ∀ t ∈ ts, L.lang t.2 w

/-- A word: it has word boundaries at its ends and nowhere else. -/
def IsWord (w : List Letter) : Prop :=
  ∃ v, w = one (boundarySym, boundarySym) ++ v ++ one (boundarySym, boundarySym) ∧ .pair boundarySym boundarySym ∉ v

/-- A place inside a word: `l` is what comes before it and `r` what comes after it. -/
def Inside (l r : List Letter) : Prop :=
  ∃ l' r', l = one (boundarySym, boundarySym) ++ l' ∧ r = r' ++ one (boundarySym, boundarySym) ∧
    .pair boundarySym boundarySym ∉ l' ∧ .pair boundarySym boundarySym ∉ r'

/-- The demands of a text, in the order in which they stand there: each is a rule and the pair that it demands. -/
def forced (rs : List (Source L)) : List (Source L × (Sym × Sym)) :=
  rs.flatMap fun s =>
    if s.op = .left ∨ s.op = .leftRight then
      match s.center with
      | .pairs ps => ps.map fun p => (s, p)
      | .re _ => []
    else []

/-- Inside of words the second rule is about none of the places of the first, or only about places of the first. -/
def ApartOrNarrower (s t : Source L) : Prop :=
  (∀ l r, Pairs L l → Pairs L r → Inside l r → s.Applies l r → ¬ t.Applies l r) ∨
  ∀ l r, Pairs L l → Pairs L r → Inside l r → t.Applies l r → s.Applies l r

end Hfst.TwolcRule
