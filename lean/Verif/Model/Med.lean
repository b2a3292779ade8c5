import Verif.Model.Graph

/-!
# Alignment of the two sides of a lexc entry

Model of `find_med_alingment` (libhfst/src/parsers/lexc-utils.cc:559-656).  Costs are natural numbers: the conversions
between `unsigned int`, `int` and `size_t` are exact for sides of fewer than 2^30 symbols.
-/
namespace Hfst.Med
open Hfst.StdString Hfst.Basic

/-- `EPSILON_` (libhfst/src/parsers/lexc-utils.h:31). -/
def epsilon : Sym := "@@ANOTHER_EPSILON@@".toList

/-- The directions `SUBSTITUTE`, `DELETE`, `INSERT` (libhfst/src/parsers/lexc-utils.h:28-30). -/
inductive Dir where
  | substitute
  | delete
  | insert
  deriving DecidableEq

/-- An entry of the tables `d` and `dir` (libhfst/src/parsers/lexc-utils.cc:567-569). -/
abbrev Cell := Nat × Dir

/-- The choice for one entry (libhfst/src/parsers/lexc-utils.cc:588-616): `diag`, `left` and `up` are `d[i-1][j-1]`,
`d[i][j-1]` and `d[i-1][j]`. -/
def choose (a b : Sym) (diag left up : Nat) : Cell :=
  let sub := diag + (if a = b then 0 else 100)
  let ins := left + 1
  let del := up + 1
  if sub ≤ ins ∧ sub ≤ del then (sub, .substitute)
  else if del ≤ sub ∧ del ≤ ins then (del, .delete)
  else (ins, .insert)

/-- The inner loop (libhfst/src/parsers/lexc-utils.cc:585-617): from the entry to the left and the row above. -/
def rowGo (a : Sym) : Cell → List Sym → List Cell → List Cell
  | left, b :: bs, p :: q :: ps =>
    let c := choose a b p.1 left.1 q.1
    c :: rowGo a c bs (q :: ps)
  | _, _, _ => []

/-- The outer loop (libhfst/src/parsers/lexc-utils.cc:572-576, 583-618) below a row with number `i`. -/
def rows (s2 : List Sym) : Nat → List Cell → List Sym → List (List Cell)
  | _, row, [] => [row]
  | i, row, a :: s1 =>
    let first : Cell := (i + 1, .delete)
    row :: rows s2 (i + 1) (first :: rowGo a first s2 row) s1

/-- The tables `d` and `dir` (libhfst/src/parsers/lexc-utils.cc:567-618). -/
def table (s1 s2 : List Sym) : List (List Cell) :=
  rows s2 0 ((List.range (s2.length + 1)).map fun j => (j, .insert)) s1

/-- `dir[x][y]`; `none` outside the table (libhfst/src/parsers/lexc-utils.cc:628). -/
def dirAt (t : List (List Cell)) (x y : Nat) : Option Dir := (t[x]?.bind fun r => r[y]?).map Prod.snd

/-- The loop of 624-649 and the reversal of 651-652 (libhfst/src/parsers/lexc-utils.cc): the pairs of the alignment.  The
first argument bounds the number of rounds; reading outside a vector is undefined. -/
def trace (t : List (List Cell)) (s1 s2 : List Sym) : Nat → Nat → Nat → Outcome (List (Sym × Sym))
  | _, 0, 0 => .ok []
  | 0, _, _ => .undefined
  | n + 1, x, y =>
    let push (p : Option (Sym × Sym)) (o : Outcome (List (Sym × Sym))) : Outcome (List (Sym × Sym)) :=
      match p, o with
      | some p, .ok l => .ok (l ++ [p])
      | _, _ => .undefined
    match dirAt t x y, x, y with
    | some .substitute, x + 1, y + 1 =>
      push (s1[x]?.bind fun a => s2[y]?.map fun b => (a, b)) (trace t s1 s2 n x y)
    | some .insert, x, y + 1 => push (s2[y]?.map fun b => (epsilon, b)) (trace t s1 s2 n x y)
    | some .delete, x + 1, y => push (s1[x]?.map fun a => (a, epsilon)) (trace t s1 s2 n x y)
    | _, _, _ => .undefined

/-- `find_med_alingment` (libhfst/src/parsers/lexc-utils.cc:559-656). -/
def align (s1 s2 : List Sym) : Outcome (List Sym × List Sym) :=
  match trace (table s1 s2) s1 s2 (s1.length + s2.length) s1.length s2.length with
  | .ok l => .ok (l.map Prod.fst, l.map Prod.snd)
  | .throws => .throws
  | .undefined => .undefined

end Hfst.Med
