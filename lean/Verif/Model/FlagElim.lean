import Verif.Model.Transducer

/-!
# Elimination of flag diacritics

Model of libhfst/src/HfstTransducer.cc:1783-2155, for the back-end with tropical weights.

* The regular expressions of `new_filter` are compiled by the actions of libhfst/src/parsers/xre_parse.yy; scanner and parser are
  left out.
* `contains_with_weight` with the weight zero is taken to be `contains` (libhfst/src/parsers/xre_utils.cc:1006-1016); the code
  gets to the same automaton through a replace rule (libhfst/src/parsers/xre_utils.cc:1018-1040).
-/
namespace Hfst.Trans
open Hfst.Basic

/-- `FLAG_FAIL`, `FLAG_SUCCEED`, `FLAG_NONE` (libhfst/src/HfstTransducer.cc:1838-1840). -/
inductive Verdict
  | fail
  | succeed
  | none
  deriving DecidableEq, Repr

/-- `flag_build` (libhfst/src/HfstTransducer.cc:1842-1926). -/
def flagBuild (t : Flags.FdOperator) (name value : Sym) (t' : Flags.FdOperator) (name' value' : Sym) : Verdict :=
  if name ≠ name' then .none
  else if t = .U ∧ t' = .P ∧ value = value' then .succeed
  else if t = .U ∧ t' = .C then .succeed
  else if t = .U ∧ t' = .U ∧ value ≠ value' then .fail
  else if t = .U ∧ t' = .P ∧ value ≠ value' then .fail
  else if t = .U ∧ t' = .N ∧ value = value' then .fail
  else if t = .R ∧ t' = .U ∧ value = [] then .succeed
  else if t = .R ∧ t' = .P ∧ value = [] then .succeed
  else if t = .R ∧ t' = .N ∧ value = [] then .succeed
  else if t = .R ∧ t' = .C ∧ value = [] then .fail
  else if t = .R ∧ t' = .P ∧ value = value' ∧ value ≠ [] then .succeed
  else if t = .R ∧ t' = .U ∧ value = value' ∧ value ≠ [] then .succeed
  else if t = .R ∧ t' = .P ∧ value ≠ value' ∧ value ≠ [] then .fail
  else if t = .R ∧ t' = .U ∧ value ≠ value' ∧ value ≠ [] then .fail
  else if t = .R ∧ t' = .N ∧ value ≠ [] then .fail
  else if t = .R ∧ t' = .C ∧ value ≠ [] then .fail
  else if t = .D ∧ t' = .C ∧ value = [] then .succeed
  else if t = .D ∧ t' = .P ∧ value = [] then .fail
  else if t = .D ∧ t' = .U ∧ value = [] then .fail
  else if t = .D ∧ t' = .N ∧ value = [] then .fail
  else if t = .D ∧ t' = .P ∧ value ≠ value' ∧ value ≠ [] then .succeed
  else if t = .D ∧ t' = .C ∧ value ≠ [] then .succeed
  else if t = .D ∧ t' = .N ∧ value = value' ∧ value ≠ [] then .succeed
  else if t = .D ∧ t' = .P ∧ value = value' ∧ value ≠ [] then .fail
  else if t = .D ∧ t' = .U ∧ value = value' ∧ value ≠ [] then .fail
  else if t = .D ∧ t' = .N ∧ value ≠ value' ∧ value ≠ [] then .fail
  else .none

/-- `FdOperation::get_operator(f)[0]` as an operator (libhfst/src/HfstTransducer.cc:1928-1944, 1988).  The exception for other
characters cannot happen: the flags come from `get_flags`. -/
def flagOp (x : Sym) : Flags.FdOperator := (((Flags.getOperator x).bind List.head?).bind Flags.charToOperator).getD .P

/-- `FdOperation::get_feature`, which does not fail for flags (libhfst/src/HfstTransducer.cc:1950). -/
def flagFeature (x : Sym) : Sym := (Flags.getFeature x).getD []

/-- `FdOperation::get_value`, which does not fail for flags (libhfst/src/HfstTransducer.cc:1951). -/
def flagValue (x : Sym) : Sym := (Flags.getValue x).getD []

/-- `is_valid_flag_combination` (libhfst/src/HfstTransducer.cc:1946-1966). -/
def combination (x y : Sym) : Verdict :=
  flagBuild (flagOp x) (flagFeature x) (flagValue x) (flagOp y) (flagFeature y) (flagValue y)

/-- `?*` (libhfst/src/parsers/xre_parse.yy:933-935). -/
def anyStar (B : Backend) : Graph := B.star (single identity identity)

/-- `contains` (libhfst/src/parsers/xre_utils.cc:1006-1016). -/
def contains (B : Backend) (t : Graph) : Outcome Graph :=
  let any := B.optimize (anyStar B)
  (concatenate B any t).bind fun r =>
  (concatenate B r any).bind fun r => .ok (B.optimize r)

/-- The complement operator (libhfst/src/parsers/xre_parse.yy:880-895).  The exception stands for the parse error. -/
def xreComplement (B : Backend) (t : Graph) : Outcome Graph :=
  if !isAutomaton t then .throws
  else (subtract B (B.optimize (anyStar B)) t).bind fun r => .ok (convert (r.pruneAlphabet false))

/-- `new_filter` (libhfst/src/HfstTransducer.cc:1783-1808): `~[(?* Fail) ~$Succeed Self ?*]` or `~[?* Fail ~$Succeed Self ?*]`. -/
def newFilter (B : Backend) (fail succeed self : Graph) (required : Bool) : Outcome Graph :=
  (concatenate B (anyStar B) fail).bind fun before =>
  (contains B succeed).bind fun c =>
  (xreComplement B c).bind fun between =>
  (concatenate B (if required then optionalize B (B.optimize before) else before) between).bind fun r =>
  (concatenate B r self).bind fun r =>
  (concatenate B r (anyStar B)).bind fun r =>
  (xreComplement B (B.optimize (B.optimize r))).bind fun r =>
    .ok (convert ((((B.optimize r).removeSymbol "Fail".toList).removeSymbol "Succeed".toList).removeSymbol "Self".toList))

/-- `create_empty_transducer` (libhfst/src/implementations/TropicalWeightTransducer.cc:1560-1568). -/
def nowhere : Graph := { states := [[]], finals := [], alphabet := [epsilon, unknown, identity] }

/-- `"_" + f` (libhfst/src/HfstTransducer.cc:1984, 1998, 2003). -/
def escapeFlag (x : Sym) : Sym := '_' :: x

/-- The disjunction of flags that the inner loop of `get_flag_filter` collects (libhfst/src/HfstTransducer.cc:1992-2010). -/
def flagUnion (B : Backend) : List Sym → Graph → Outcome Graph
  | [], g => .ok g
  | x :: xs, g => (disjunct B g (single (escapeFlag x) (escapeFlag x))).bind fun g => flagUnion B xs g

/-- The flags with the given verdict for the flag `x` (libhfst/src/HfstTransducer.cc:1988-2011). -/
def flagsWith (v : Verdict) (flags : List Sym) (feature x : Sym) : List Sym :=
  if (feature = [] ∨ flagFeature x = feature) ∧ (flagOp x = .U ∨ flagOp x = .R ∨ flagOp x = .D) then
    flags.filter fun y => decide (combination x y = v)
  else []

/-- `flag_found` (libhfst/src/HfstTransducer.cc:1999, 2004, 2013). -/
def hasFilter (flags : List Sym) (feature x : Sym) : Bool :=
  !(flagsWith .fail flags feature x).isEmpty || !(flagsWith .succeed flags feature x).isEmpty

/-- The filter for one flag (libhfst/src/HfstTransducer.cc:1984-2017). -/
def filterFor (B : Backend) (flags : List Sym) (feature x : Sym) : Outcome Graph :=
  (flagUnion B (flagsWith .succeed flags feature x) nowhere).bind fun succeed =>
  (flagUnion B (flagsWith .fail flags feature x) nowhere).bind fun fail =>
    newFilter B fail succeed (single (escapeFlag x) (escapeFlag x)) (decide (flagOp x = .R))

/-- The outer loop of `get_flag_filter` over the flags that have a filter (libhfst/src/HfstTransducer.cc:1982-2029). -/
def filterLoop (B : Backend) (flags : List Sym) (feature : Sym) : List Sym → Option Graph → Outcome (Option Graph)
  | [], g => .ok g
  | x :: xs, none => (filterFor B flags feature x).bind fun f => filterLoop B flags feature xs (some f)
  | x :: xs, some g => (filterFor B flags feature x).bind fun f => (intersect B g f).bind fun g =>
      filterLoop B flags feature xs (some g)

/-- `substitute_escaped_flags` (libhfst/src/HfstTransducer.cc:1810-1828): the loop over the alphabet. -/
def unescapeFlags : List Sym → Graph → Outcome Graph
  | [], g => .ok g
  | x :: xs, g =>
    if x.take 2 = ['_', '@'] then (g.substitute x (x.drop 1) true true).bind fun g => unescapeFlags xs (convert g)
    else unescapeFlags xs g

/-- `get_flag_filter` (libhfst/src/HfstTransducer.cc:1974-2038). -/
def flagFilter (B : Backend) (flags : List Sym) (feature : Sym) : Outcome (Option Graph) :=
  (filterLoop B flags feature (flags.filter (hasFilter flags feature)) none).bind fun
    | none => .ok none
    | some g => (unescapeFlags g.alphabet g).bind fun g => .ok (some (B.optimize g))

/-- What `eliminate_flags` and `eliminate_flag` do with the filter (libhfst/src/HfstTransducer.cc:2076-2091, 2140-2154;
`flag_purge`, 2043-2052). -/
def applyFilter (B : Backend) (g : Graph) (feature : Sym) : Option Graph → Outcome Graph
  | none => .ok (B.optimize (convert (g.flagPurge feature)))
  | some f =>
    (compose B f g).bind fun r =>
    (compose B r f).bind fun r => .ok (B.optimize (convert (r.flagPurge feature)))

/-- `HfstTransducer::eliminate_flags` (libhfst/src/HfstTransducer.cc:2054-2092). -/
def eliminateFlags (B : Backend) (g : Graph) : Outcome Graph := (flagFilter B g.getFlags []).bind (applyFilter B g [])

/-- `HfstTransducer::eliminate_flag` (libhfst/src/HfstTransducer.cc:2094-2155). -/
def eliminateFlag (B : Backend) (g : Graph) (feature : Sym) : Outcome Graph :=
  if g.getFlags.all fun x => decide (flagFeature x ≠ feature) then .throws
  else (flagFilter B g.getFlags feature).bind (applyFilter B g feature)

end Hfst.Trans
