import Verif.Spec.Sfst
import Verif.Model.SfstFile

/-!
# What a transducer read from a file has to be

Independent of how files are written and read: the same transducer up to the numbers of its nodes, without the nodes that are out of
reach, with the same symbols.
-/
namespace Hfst.Sfst
open Hfst.Ol (Bytes)

/-- `r` is `g` with its nodes renumbered by `φ`, without the nodes out of reach; the root is node 0 in both. -/
structure Renumbered (g r : Graph) (φ : Nat → Nat) : Prop where
  root : φ 0 = 0
  low : ∀ n, g.Reach 0 n → φ n < r.size
  inj : ∀ n m, g.Reach 0 n → g.Reach 0 m → φ n = φ m → n = m
  onto : ∀ j, j < r.size → ∃ n, g.Reach 0 n ∧ φ n = j
  final : ∀ n, g.Reach 0 n → (r.node (φ n)).final = (g.node n).final
  arcs : ∀ n, g.Reach 0 n → ((r.node (φ n)).arcs).Perm ((g.node n).arcs.map (fun a => (a.1, φ a.2)))

/-- The same coding of the alphabet, the same codes for the same symbols, and the same label pairs. -/
structure SameSymbols (a b : Symbols) : Prop where
  utf8 : b.utf8 = a.utf8
  codes : ∀ c x, (c, x) ∈ b.codes ↔ (c, x) ∈ a.codes
  pairs : ∀ l, l ∈ b.pairs ↔ l ∈ a.pairs

/-- A table of symbols as the back-end keeps it: code 0 is `<>`, no code and no symbol stands twice, symbols are not empty strings and
strings end at a zero byte, and the pair 0:0 is not stored. -/
structure Symbols.Proper (a : Symbols) : Prop where
  epsilon : (0, [60, 62]) ∈ a.codes
  code : ∀ c x y, (c, x) ∈ a.codes → (c, y) ∈ a.codes → x = y
  symbol : ∀ c d x, (c, x) ∈ a.codes → (d, x) ∈ a.codes → c = d
  text : ∀ c x, (c, x) ∈ a.codes → x ≠ [] ∧ 0 ∉ x
  pair : ⟨0, 0⟩ ∉ a.pairs

/-- What the file format has room for: 16 bits for codes and for the numbers of symbols, of label pairs and of arcs at a node, 32 bits
for nodes; and the reader has room for 99999 bytes of a symbol. -/
structure Net.Fits (t : Net) : Prop where
  nodes : t.graph.size < 256 ^ 4
  arcs : ∀ n, t.graph.Reach 0 n → (t.graph.node n).arcs.length < 256 ^ 2
  labels : ∀ n, t.graph.Reach 0 n → ∀ a ∈ (t.graph.node n).arcs, a.1.lower < 256 ^ 2 ∧ a.1.upper < 256 ^ 2
  symbols : t.symbols.codes.length < 256 ^ 2
  code : ∀ c x, (c, x) ∈ t.symbols.codes → c < 256 ^ 2 ∧ x.length < 100000
  count : t.symbols.pairs.length < 256 ^ 2
  pair : ∀ l ∈ t.symbols.pairs, l.lower < 256 ^ 2 ∧ l.upper < 256 ^ 2

/-- The numbers given to the nodes before, if there are any, are good for the nodes there are now: the root has number 0 and all nodes
in reach have a number of their own. -/
def Net.Numbered (t : Net) : Prop :=
  ∀ ns, t.order = some ns → ns.Nodup ∧ (∃ l, ns = 0 :: l) ∧ (∀ n ∈ ns, n < t.graph.size) ∧ ∀ n, t.graph.Reach 0 n → n ∈ ns

end Hfst.Sfst
