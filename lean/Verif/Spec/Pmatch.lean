import Verif.Model.Pmatch

/-!
# What matching should do with the input
-/
namespace Hfst.Pmatch
open Hfst.Basic Hfst.Ol

/-- The input that is on a tape: its input symbols without epsilons. -/
def inputsOf (tape : List (Nat × Nat)) : List Nat := (tape.map (·.1)).filter fun x => decide (x ≠ 0)

/-- The symbol stands for other symbols: it is a list, or one of the symbols for classes of letters, identity, unknown and default. -/
def Generic (al : PmAlphabet) (x : Nat) : Prop :=
  x = al.alpha ∨ x = al.upper ∨ x = al.lower ∨ x = al.space ∨ x = al.base.identity ∨ x = al.base.unknown ∨ x = al.base.default ∨
    x ∈ al.exclusions ∨ ∃ l ∈ al.symbolLists, x ∈ l

/-- A transition that reads a symbol standing for others also writes one, and end tags are written without reading anything. -/
structure Faithful (al : PmAlphabet) (nets : List Tables) : Prop where
  generic : ∀ T ∈ nets, ∀ e ∈ T.transitions, e.input ≠ noSymbol → Generic al e.input →
    al.isMeta e.output = true ∨ ∃ l, al.list2symbols[e.output]? = some l ∧ l ≠ noSymbol
  tags : ∀ T ∈ nets, ∀ e ∈ T.transitions, al.isEndTag e.output = true → e.input = 0

/-- The alphabet makes sense: it tells for each symbol whether it is printable, and epsilon, the symbols that mark entry and exit, the boundary
and end tags are not. -/
structure Marks (al : PmAlphabet) : Prop where
  size : al.printable.length = al.base.table.length
  nonempty : 0 < al.base.table.length
  strings : ∀ x ∈ al.base.table, x ≠ [] ∧ 0 ∉ x
  epsilon : al.isPrintable 0 = false
  ends : ∀ x, x = al.entry ∨ x = al.exit → x = noSymbol ∨ (x < al.base.table.length ∧ al.isPrintable x = false)
  boundary : al.boundary ≠ noSymbol → al.boundary ≠ 0 ∧ al.boundary < al.base.table.length ∧ al.isPrintable al.boundary = false ∧
    al.isEndTag al.boundary = false
  tags : ∀ x, al.isEndTag x = true → x < al.base.table.length ∧ al.isPrintable x = false

/-- The transitions only put marks into the text: what they read they write, and if they read nothing, they write nothing printable. -/
structure Marker (al : PmAlphabet) (nets : List Tables) : Prop where
  reads : ∀ T ∈ nets, ∀ e ∈ T.transitions, e.input ≠ 0 → e.output = e.input ∨ al.isMeta e.output = true ∨
    ∃ l, al.list2symbols[e.output]? = some l ∧ l ≠ noSymbol
  marks : ∀ T ∈ nets, ∀ e ∈ T.transitions, e.input = 0 → e.output < al.base.table.length ∧ al.isPrintable e.output = false

/-- The text can be cut into characters: if symbols have to be single characters (`single`), a character of the text begins with no other
character of the text and with no known symbol. -/
def Clean (K : Cutter) (table : List Bytes) (text : Bytes) : Prop := K.single = true → ∀ s, s ≠ [] → s <:+ text →
  0 < K.bytes s ∧ (∀ x ∈ table, x <+: s.take (K.bytes s) → x = s.take (K.bytes s)) ∧
    ∀ t, t ≠ [] → t <:+ text → t.take (K.bytes t) <+: s.take (K.bytes s) → t.take (K.bytes t) = s.take (K.bytes s)

/-- The name of no special symbol occurs in the text. -/
def Plain (al : PmAlphabet) (text : Bytes) : Prop :=
  ∀ k x, al.base.table[k]? = some x → al.isPrintable k = false → ¬ x <:+: text

/-- The encoder was made for the symbols of the alphabet. -/
def Ready (m : Memory) : Prop := Encoder.make m.al.base.table m.al.base.table.length = .ok m.enc

/-- A text that can be matched. -/
structure Fit (X : Container) (m : Memory) (text : Bytes) : Prop where
  ready : Ready m
  marks : Marks m.al
  faithful : Faithful m.al X.nets
  plain : Plain m.al text
  clean : Clean X.cutter m.al.base.table text
  ends : 0 ∉ text
  room : m.al.base.table.length + text.length ≤ noSymbol

/-- What is still known after a text. -/
structure Kept (X : Container) (m m' : Memory) (text : Bytes) : Prop where
  ready : Ready m'
  marks : Marks m'.al
  faithful : Faithful m'.al X.nets
  boundary : m'.al.boundary = m.al.boundary
  plain : ∀ t, Plain m.al t → Plain m'.al t
  size : m'.al.base.table.length ≤ m.al.base.table.length + text.length

/-- A start tag or an end tag. -/
def TagString (al : PmAlphabet) (t : Bytes) : Prop := ∃ x ∈ al.endTags, t = al.startTag x.1 ∨ t = al.endTag x.1

/-- The strings of the printable symbols. -/
def shownSymbols (al : PmAlphabet) (ks : List Nat) : List Bytes :=
  (ks.filter fun k => al.isPrintable k).map fun k => (al.base.table[k]?).getD []

/-- The groups of locations cover the symbols one after the other, without gaps: all locations of a group show the same part of the input, the
next group shows what comes next, and (if `starts`) each location tells how many symbols come before it. -/
inductive Tiles (starts : Prop) : Nat → List Bytes → List (List Location) → Prop
  | nil {n : Nat} : Tiles starts n [] []
  | cons {n : Nat} {x rest : List Bytes} {g : List Location} {gs : List (List Location)} : g ≠ [] →
      (∀ l ∈ g, (starts → l.start = n) ∧ l.inputSymbols = x ∧ l.input = x.flatten ∧ l.length = x.length) →
      Tiles starts (n + x.length) rest gs → Tiles starts n (x ++ rest) (g :: gs)

/-- `b` is `a` with tags put in. -/
inductive Tagged (tags : Bytes → Prop) : Bytes → Bytes → Prop
  | nil : Tagged tags [] []
  | put {a u v t : Bytes} : tags t → Tagged tags a (u ++ v) → Tagged tags a (u ++ t ++ v)
  | more {a b x : Bytes} : Tagged tags a b → Tagged tags (a ++ x) (b ++ x)

end Hfst.Pmatch
