import Verif.Model.Transducer
import Verif.Spec.Lexc
import Verif.Props.Harmonize

/-!
# What a transducer with unknown and identity symbols relates, and what is asked of a back-end

Specification of properties C72-C75.
-/
namespace Hfst.Trans
open Hfst.Basic
open Hfst.Lexc (strip Cost Good HasLabel Star)

/-! ## Meaning -/

/-- `g` accepts the sequence `l` of concrete symbol pairs, up to epsilon pairs, with a weight of at most `w`.  In a transition,
the unknown and the identity symbol stand for the symbols that are not in the alphabet. -/
def Means (g : Graph) (l : List (Sym × Sym)) (w : Int) : Prop :=
  ∃ l' w', Describes g l' w' ∧ strip l' = l ∧ w' ≤ w

/-- The string on the input side. -/
def ins (l : List (Sym × Sym)) : List Sym := (l.map Prod.fst).filter fun x => x ≠ epsilon

/-- The string on the output side. -/
def outs (l : List (Sym × Sym)) : List Sym := (l.map Prod.snd).filter fun x => x ≠ epsilon

/-- `g` maps the string `s` to the string `t` with a weight of at most `w`. -/
def Relates (g : Graph) (s t : List Sym) (w : Int) : Prop := ∃ l, Means g l w ∧ ins l = s ∧ outs l = t

/-- A transducer as the library makes it: it is well formed, identity is on both sides of a transition or on none, and the
empty string is not a symbol. -/
structure Usual (g : Graph) : Prop where
  good : Good g
  paired : IdentityPaired g
  nonempty : [] ∉ g.alphabet

/-- The two alphabets have the same symbols of the form `@_..._@`.  (Usually the epsilon, unknown and identity symbols.) -/
def SameSpecials (g h : Graph) : Prop := ∀ x, isSpecial x = true → (x ∈ g.alphabet ↔ x ∈ h.alphabet)

/-- The two alphabets are equal as sets. -/
def Same (g h : Graph) : Prop := ∀ x, x ∈ g.alphabet ↔ x ∈ h.alphabet

/-- The only symbols of the form `@_..._@` in the alphabet are the epsilon, unknown and identity symbols. -/
def Plain (g : Graph) : Prop := ∀ x, isSpecial x = true → x ∈ g.alphabet → x = epsilon ∨ x = unknown ∨ x = identity

/-- `l` consists of `n` sequences of `L` one after the other, with weights that add up to at most `w`. -/
def Times (L : List (Sym × Sym) → Int → Prop) (n : Nat) (l : List (Sym × Sym)) (w : Int) : Prop :=
  ∃ parts : List (List (Sym × Sym) × Int), parts.length = n ∧ (∀ p ∈ parts, L p.1 p.2) ∧ l = parts.flatMap Prod.fst ∧
    (parts.map Prod.snd).sum ≤ w

/-- Pairs of sequences where the output of the first is the input of the second, side by side: pairs that share a symbol are
put together, and a pair with epsilon in the middle stands alone. -/
inductive Joined : List (Sym × Sym) → List (Sym × Sym) → List (Sym × Sym) → Prop
  | nil : Joined [] [] []
  | both {x y z : Sym} {a b c : List (Sym × Sym)} : y ≠ epsilon → Joined a b c →
      Joined ((x, y) :: a) ((y, z) :: b) ((x, z) :: c)
  | left {x : Sym} {a b c : List (Sym × Sym)} : Joined a b c → Joined ((x, epsilon) :: a) b ((x, epsilon) :: c)
  | right {z : Sym} {a b c : List (Sym × Sym)} : Joined a b c → Joined a ((epsilon, z) :: b) ((epsilon, z) :: c)

/-! ## The back-end -/

/-- `r` is a transducer over the alphabet of `g` that accepts the sequences of `L` and has only labels of `P`.  All symbols
are taken literally here. -/
structure Result (g r : Graph) (P : Sym × Sym → Prop) (L : List (Sym × Sym) → Int → Prop) : Prop where
  good : Good r
  alphabet : Same r g
  labels : ∀ p, HasLabel r p → P p ∨ p = (epsilon, epsilon)
  cost : ∀ l w, Cost r l w ↔ L l w

/-- What is assumed of a back-end: each operation computes what it is documented to compute.  The back-end knows nothing about
unknown and identity symbols; operands have the same alphabet. -/
structure Backend.Ok (B : Backend) : Prop where
  optimize : ∀ g, Good g → Result g (B.optimize g) (HasLabel g) (Cost g)
  star : ∀ g, Good g → Result g (B.star g) (HasLabel g) (Star (Cost g))
  concat : ∀ g h, Good g → Good h → Same g h → Result g (B.concat g h) (fun p => HasLabel g p ∨ HasLabel h p)
    fun l w => ∃ l₁ l₂ w₁ w₂, Cost g l₁ w₁ ∧ Cost h l₂ w₂ ∧ l = l₁ ++ l₂ ∧ w₁ + w₂ ≤ w
  disjunct : ∀ g h, Good g → Good h → Same g h → Result g (B.disjunct g h) (fun p => HasLabel g p ∨ HasLabel h p)
    fun l w => Cost g l w ∨ Cost h l w
  intersect : ∀ g h, Good g → Good h → Same g h → Result g (B.intersect g h) (HasLabel g)
    fun l w => ∃ w₁ w₂, Cost g l w₁ ∧ Cost h l w₂ ∧ w₁ + w₂ ≤ w
  subtract : ∀ g h, Good g → Good h → Same g h → Result g (B.subtract g h) (HasLabel g)
    fun l w => Cost g l w ∧ ∀ v, ¬ Cost h l v
  projectInput : ∀ g, Good g → Result g (B.projectInput g) (fun p => p.1 = p.2)
    fun l w => ∃ l', Cost g l' w ∧ l = strip (l'.map fun p => (p.1, p.1))
  projectOutput : ∀ g, Good g → Result g (B.projectOutput g) (fun p => p.1 = p.2)
    fun l w => ∃ l', Cost g l' w ∧ l = strip (l'.map fun p => (p.2, p.2))
  invert : ∀ g, Good g → Result g (B.invert g) (fun p => HasLabel g p.swap)
    fun l w => ∃ l', Cost g l' w ∧ l = l'.map Prod.swap
  compose_good : ∀ g h, Good g → Good h → Same g h → Good (B.compose g h)
  compose_alphabet : ∀ g h, Good g → Good h → Same g h → Same (B.compose g h) g
  compose_sound : ∀ g h, Good g → Good h → Same g h → ∀ l w, Cost (B.compose g h) l w →
    ∃ a b j w₁ w₂, Cost g a w₁ ∧ Cost h b w₂ ∧ Joined a b j ∧ strip j = l ∧ w₁ + w₂ ≤ w
  compose_complete : ∀ g h, Good g → Good h → Same g h → ∀ a b w₁ w₂, Cost g a w₁ → Cost h b w₂ → outs a = ins b →
    ∃ j, Joined a b j ∧ Cost (B.compose g h) (strip j) (w₁ + w₂)
  equivalent : ∀ g h, Good g → Good h → Same g h → (B.equivalent g h = true ↔ ∀ l w, Cost g l w ↔ Cost h l w)

end Hfst.Trans
