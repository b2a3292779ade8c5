import Verif.Model.ExpandEquiv

/-!
# What hfst-expand-equivalences is for

The help text (tools/src/hfst-expand-equivalences.cc:73-104): "Extend transducer arcs for equivalence classes": the symbol ISYM is
converted "to allow OSYM", on the first level, the second level or both.
-/
namespace Hfst.Expand
open Hfst.StdString Hfst.Basic

/-- The string of a symbol: the epsilon symbol stands for the empty string (libhfst/src/HfstSymbolDefs.cc:17-20). -/
def strOf (x : Sym) : List Sym := if x = epsilon then [] else [x]

/-- A symbol that a string can have (the special symbols are those of libhfst/src/HfstSymbolDefs.cc:17-30). -/
def Ordinary (x : Sym) : Prop := x ≠ epsilon ∧ x ≠ unknown ∧ x ≠ identity

/-- A symbol that stands for itself or for nothing (libhfst/src/HfstSymbolDefs.cc:17-30). -/
def Plain (x : Sym) : Prop := x ≠ unknown ∧ x ≠ identity

/-- The relation repeated any number of times (`repeat_star`, called in tools/src/hfst-expand-equivalences.cc:396). -/
inductive Repeated (R : List Sym → List Sym → Prop) : List Sym → List Sym → Prop
  | nil : Repeated R [] []
  | step {u v u' v'} : R u v → Repeated R u' v' → Repeated R (u ++ u') (v ++ v')

/-- What is assumed of the functions of the library: `meaning t u v` says that the transducer accepts the pair of strings.  The identity
symbol stands for every symbol, since the transducers are harmonized by `disjunct` and `compose`
(functions called in tools/src/hfst-expand-equivalences.cc:232-233, 245-246, 396-411). -/
structure Lawful {T : Type} (L : Library T) (meaning : T → List Sym → List Sym → Prop) : Prop where
  identity : ∀ u v, meaning (L.pair identity identity) u v ↔ ∃ c, Ordinary c ∧ u = [c] ∧ v = [c]
  pair : ∀ x y, x ≠ [] → y ≠ [] → Plain x → Plain y → ∀ u v, meaning (L.pair x y) u v ↔ u = strOf x ∧ v = strOf y
  disjunct : ∀ s t u v, meaning (L.disjunct s t) u v ↔ meaning s u v ∨ meaning t u v
  compose : ∀ s t u v, meaning (L.compose s t) u v ↔ ∃ w, meaning s u w ∧ meaning t w v
  minimize : ∀ t u v, meaning (L.minimize t) u v ↔ meaning t u v
  star : ∀ t u v, meaning (L.star t) u v ↔ Repeated (meaning t) u v
  invert : ∀ t u v, meaning (L.invert t) u v ↔ meaning t v u

/-- `v` is `u` with any of its symbols replaced by symbols that are equivalent to them; `E x y`: `x` may be written as `y`
(tools/src/hfst-expand-equivalences.cc:84-85). -/
inductive Written (E : Sym → Sym → Prop) : List Sym → List Sym → Prop
  | nil : Written E [] []
  | keep {c u v} : Ordinary c → Written E u v → Written E (c :: u) (c :: v)
  | change {x y u v} : E x y → Written E u v → Written E (strOf x ++ u) (strOf y ++ v)

/-- The pairs that the result accepts, on each of the levels (tools/src/hfst-expand-equivalences.cc:91, 97-99). -/
def Expanded (E : Sym → Sym → Prop) (old : List Sym → List Sym → Prop) : Level → List Sym → List Sym → Prop
  | .first, u, v => ∃ u', Written E u' u ∧ old u' v
  | .second, u, v => ∃ v', old u v' ∧ Written E v' v
  | .both, u, v => ∃ u' v', Written E u' u ∧ old u' v' ∧ Written E v' v

/-- Fields with a tab between them (the tsv format, tools/src/hfst-expand-equivalences.cc:89-90). -/
def joined : List Str → Str
  | [] => []
  | [f] => f
  | f :: fs => f ++ '\t' :: joined fs

/-- The fields of a line: none is empty (tools/src/hfst-expand-equivalences.cc:281-288, 296-303). -/
def Fields (fs : List Str) : Prop := ∀ f ∈ fs, f ≠ [] ∧ '\t' ∉ f ∧ '\n' ∉ f

/-- The line is the text, with or without a newline (`hfst_getline`, called in tools/src/hfst-expand-equivalences.cc:259). -/
def Line (l text : Str) : Prop := l = text ∨ l = text ++ ['\n']

/-- The lines are as they are read from a file: a line is not empty, and only its last character can be a newline
(`hfst_getline`, called in tools/src/hfst-expand-equivalences.cc:259). -/
def FromFile (lines : List Str) : Prop := ∀ l ∈ lines, l ≠ [] ∧ ∃ text, '\n' ∉ text ∧ Line l text

/-- The file says that `x` may be written as `y`: on some line, `x` is the first field and `y` is one of the others
(tools/src/hfst-expand-equivalences.cc:89-90). -/
def Says (lines : List Str) (x y : Sym) : Prop :=
  ∃ l ∈ lines, ∃ ys, Fields (x :: ys) ∧ Line l (joined (x :: ys)) ∧ y ∈ ys

/-- The file is as it should be: every line is empty, a comment without tabs, or has a first field and at least one other field
(tools/src/hfst-expand-equivalences.cc:262-277). -/
def InFormat (lines : List Str) : Prop :=
  ∀ l ∈ lines, l = ['\n'] ∨ (∃ rest, '\t' ∉ rest ∧ l = '#' :: rest) ∨ ∃ x y ys, Fields (x :: y :: ys) ∧ Line l (joined (x :: y :: ys))

end Hfst.Expand
