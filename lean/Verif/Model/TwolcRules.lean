import Verif.Model.Graph

/-!
# The rules of a two-level grammar, their conflicts and their compilation

Model of `libhfst/src/parsers/rule_src` (`Rule`, `RightArrowRule`, `LeftArrowRule`, `LeftRestrictionArrowRule`, the rules and containers that
resolve conflicts, `TwolCGrammar`) and of the action for a rule in `htwolcpre3-parser.yy`.  Transducers are taken from a library `Lib`, whose
operations are assumed to be right (`Lib.Right`, in the specification); that is what `HfstTransducer` does for the pairs of a two-level grammar,
which are symbols of an automaton to it.  Left out: diacritics, pairs that are not in the alphabet
(`is_broken`), names of symbols and the replacement of internal symbols when a rule is stored (`Rule.cc` 100–111).
Pointers to rules are positions in a list.
-/
namespace Hfst.TwolcRule
open Hfst.Basic (Outcome Sym mapGet mapPut setInsert Graph Arc)

/-- `TWOLC_EPSILON` (`OtherSymbolTransducer.h` 58). -/
def zeroSym : Sym := "__HFST_TWOLC_0".toList

/-- `TWOLC_IDENTITY` (`OtherSymbolTransducer.h` 52): it stands for all symbols that the grammar does not have. -/
def otherSym : Sym := "@_TWOLC_IDENTITY_SYMBOL_@".toList

/-- The word boundary (`ConflictResolvingLeftArrowRule.cc` 31). -/
def boundarySym : Sym := "__HFST_TWOLC_.#.".toList

/-- What a transition reads: a pair of symbols or the mark around the center of a rule, `TWOLC_DIAMOND` (`OtherSymbolTransducer.h` 57). -/
inductive Letter where
  | pair (i o : Sym)
  | diamond
  deriving DecidableEq, Repr

/-- `OtherSymbolTransducer` (`OtherSymbolTransducer.h` 118–295) and what is asked of it: the alphabet (`symbol_pairs`, without the mark),
`OtherSymbolTransducer()`, `OtherSymbolTransducer(i, o)`, `OtherSymbolTransducer(TWOLC_UNKNOWN)`, `OtherSymbolTransducer(TWOLC_DIAMOND)`, `apply` with
`disjunct`, `concatenate`, `intersect`, `subtract`, `repeat_star` and `substitute(TWOLC_DIAMOND, HFST_EPSILON)`,
`get_inverse_of_upper_projection`, negated `is_empty_intersection`, `is_empty`. -/
structure Lib where
  T : Type
  lang : T → List Letter → Prop
  declared : Sym → Sym → Prop
  nothing : T
  pair : Sym → Sym → T
  any : T
  diamond : T
  disjunct : T → T → T
  concatenate : T → T → T
  intersect : T → T → T
  subtract : T → T → T
  star : T → T
  dropDiamonds : T → T
  abstracted : T → T
  common : T → T → Bool
  empty : T → Bool

variable (L : Lib)

/-- `OtherSymbolTransducer::get_context` (`OtherSymbolTransducer.cc` 235–251). -/
def getContext (left right : L.T) : L.T :=
  let universal := L.star L.any
  L.concatenate (L.concatenate (L.concatenate (L.concatenate (L.concatenate universal left) L.diamond) (L.star universal)) L.diamond) right
    |> fun t => L.concatenate t (L.star universal)

/-- `Rule::get_center(restricted_center)` (`Rule.cc` 177–189). -/
def getCenter (c : L.T) : L.T :=
  let u := L.star L.any
  L.concatenate (L.concatenate (L.concatenate (L.concatenate u L.diamond) c) L.diamond) u

/-- `Rule::get_center(input, output)` (`Rule.cc` 142–155). -/
def getCenterPair (p : Sym × Sym) : L.T := getCenter L (L.pair p.1 p.2)

/-- `get_wb_fst` (`ConflictResolvingLeftArrowRule.cc` 29–49). -/
def wbFst : L.T :=
  let wb := L.pair boundarySym boundarySym
  let noWb := L.star (L.disjunct (L.subtract L.any wb) L.diamond)
  L.concatenate (L.concatenate wb noWb) wb

/-- `wbize` (`ConflictResolvingLeftArrowRule.cc` 51–57). -/
def wbize (t : L.T) : L.T := L.intersect t (wbFst L)

/-- `OtherSymbolTransducer::is_subset` (`OtherSymbolTransducer.cc` 709–716): the argument is a subset of the transducer. -/
def isSubset (t another : L.T) : Bool := L.empty (L.subtract another t)

/-- The classes of rules: `RightArrowRule`, `LeftArrowRule`, `LeftRestrictionArrowRule`. -/
inductive Kind where
  | right
  | left
  | notLeft
  deriving DecidableEq, Repr

/-- `Rule` (`Rule.h` 34–41); `centerPair` is `center_pair` of `ConflictResolvingRightArrowRule` and has `input_symbol` of
`ConflictResolvingLeftArrowRule` in front.  `rule_transducer` is what `Rule.compile` gives. -/
structure Rule where
  kind : Kind
  isEmpty : Bool
  name : Sym
  centerPair : Sym × Sym
  center : L.T
  context : L.T

/-- The constructor of `Rule` (`Rule.cc` 19–30): the contexts are joined.  `unescape_name` is left out. -/
def Rule.make (kind : Kind) (name : Sym) (centerPair : Sym × Sym) (center : L.T) (contexts : List L.T) : Rule L :=
  ⟨kind, false, name, centerPair, center, contexts.foldl L.disjunct L.nothing⟩

/-- `compile` of `RightArrowRule` (`RightArrowRule.cc` 26–36), `LeftArrowRule` (`LeftArrowRule.cc` 26–40) and `LeftRestrictionArrowRule`
(`LeftRestrictionArrowRule.cc` 35–45). -/
def Rule.compile (r : Rule L) : L.T :=
  match r.kind with
  | .right => L.subtract (L.star L.any) (L.dropDiamonds (L.subtract r.center r.context))
  | .left => L.subtract (L.star L.any) (L.dropDiamonds (L.subtract (L.intersect r.context (L.abstracted r.center)) r.center))
  | .notLeft => L.subtract (L.star L.any) (L.dropDiamonds (L.intersect r.center r.context))

/-- `ConflictResolvingLeftArrowRule::conflicts_this` (`ConflictResolvingLeftArrowRule.cc` 59–63). -/
def Rule.conflicts (r another : Rule L) : Bool := L.common r.context (wbize L another.context)

/-- `resolvable_conflict` (`ConflictResolvingLeftArrowRule.cc` 65–67). -/
def Rule.resolvable (r another : Rule L) : Bool := isSubset L r.context (wbize L another.context)

/-- `resolve_conflict` of a left arrow rule (`ConflictResolvingLeftArrowRule.cc` 69–71). -/
def Rule.restrict (r another : Rule L) : Rule L := { r with context := L.subtract r.context another.context }

/-- `resolve_conflict` of a right arrow rule (`ConflictResolvingRightArrowRule.cc` 37–44). -/
def Rule.join (r another : Rule L) : Rule L :=
  { r with context := L.disjunct r.context another.context, name := r.name ++ " and ".toList ++ another.name }

/-- What is written to the terminal (`LeftArrowRuleContainer.cc` 43–47, 80–84, 91–94, 101–102; `RightArrowRuleContainer.cc` 35–41).  The example
of a context is left out. -/
inductive Message where
  | leftConflict (a b : Sym)
  | restricting (a : Sym)
  | unresolvable
  | rightConflict (a b : Sym)
  deriving DecidableEq, Repr

/-- The arguments of the constructor of `TwolCGrammar` (`TwolCGrammar.cc` 22–36): what is reported and what is resolved. -/
structure Options where
  reportLeft : Bool
  resolveLeft : Bool
  reportRight : Bool
  resolveRight : Bool
  deriving DecidableEq, Repr

/-- `TwolCGrammar` (`TwolCGrammar.h` 48–86): all rules that were made, `center_to_rule_map`, `input_to_rule_map`, the rules in the vectors of the three
containers, `name_to_rule_subcases`, and what was written. -/
structure Grammar where
  heap : List (Rule L)
  rights : List ((Sym × Sym) × Nat)
  lefts : List (Sym × List Nat)
  vec : List Nat
  groups : List (Sym × List Nat)
  out : List Message

/-- A grammar without rules (`TwolCGrammar.cc` 22–36). -/
def Grammar.init : Grammar L := ⟨[], [], [], [], [], []⟩

variable {L}

/-- `get_original_name` (`TwolCGrammar.cc` 19–20): the name up to `SUBCASE:`. -/
def originalName : Sym → Sym
  | [] => []
  | c :: s => if "SUBCASE:".toList.isPrefixOf (c :: s) then [] else c :: originalName s

/-- `name_to_rule_subcases[get_original_name(name)].insert(rule)` (`TwolCGrammar.cc` 66, 79). -/
def Grammar.insertGroup (g : Grammar L) (name : Sym) (k : Nat) : Grammar L :=
  { g with groups := mapPut g.groups (originalName name) (setInsert ((mapGet g.groups (originalName name)).getD []) k) }

/-- `RightArrowRuleContainer::add_rule_and_display_and_resolve_conflicts` (`RightArrowRuleContainer.cc` 28–57), then the entry in
`name_to_rule_subcases`. -/
def Grammar.addRight (o : Options) (g : Grammar L) (r : Rule L) : Grammar L :=
  let k := g.heap.length
  match mapGet g.rights r.centerPair with
  | some j =>
    let out := if o.reportRight then
        match g.heap[j]? with
        | some x => g.out ++ [.rightConflict x.name r.name]
        | none => g.out
      else g.out
    if o.resolveRight then
      ({ g with heap := g.heap.modify j (fun x => x.join L r) ++ [{ r with isEmpty := true }], out := out } : Grammar L).insertGroup r.name k
    else ({ g with heap := g.heap ++ [r], vec := g.vec ++ [k], out := out } : Grammar L).insertGroup r.name k
  | none =>
    ({ g with heap := g.heap ++ [r], rights := mapPut g.rights r.centerPair k, vec := g.vec ++ [k] } : Grammar L).insertGroup r.name k

/-- One round of the loop over the rules with the same input symbol (`LeftArrowRuleContainer.cc` 34–111): the rules, the new rule, what is
written. -/
def leftStep (o : Options) (s : List (Rule L) × Rule L × List Message) (k : Nat) : List (Rule L) × Rule L × List Message :=
  match s.1[k]? with
  | none => s
  | some it =>
    let r := s.2.1
    if it.conflicts L r then
      let say := fun (m : List Message) (x : Message) => if o.reportLeft then m ++ [x] else m
      let out := say s.2.2 (.leftConflict it.name r.name)
      if o.resolveLeft then
        if it.resolvable L r then (s.1.set k (it.restrict L r), r, say out (.restricting it.name))
        else if r.resolvable L it then (s.1, r.restrict L it, say out (.restricting r.name))
        else (s.1, r, say out .unresolvable)
      else (s.1, r, out)
    else s

/-- `LeftArrowRuleContainer::add_rule_and_display_and_resolve_conflicts` (`LeftArrowRuleContainer.cc` 28–115), then the entry in
`name_to_rule_subcases`. -/
def Grammar.addLeft (o : Options) (g : Grammar L) (r : Rule L) : Grammar L :=
  let k := g.heap.length
  let same := (mapGet g.lefts r.centerPair.1).getD []
  let s := same.foldl (leftStep o) (g.heap, r, g.out)
  ({ g with heap := s.1 ++ [s.2.1], lefts := mapPut g.lefts r.centerPair.1 (same ++ [k]), vec := g.vec ++ [k], out := s.2.2 } : Grammar L).insertGroup r.name k

/-- `RuleContainer::add_rule` (`RuleContainer.cc` 33–34), then the entry in `name_to_rule_subcases`. -/
def Grammar.addOther (g : Grammar L) (r : Rule L) : Grammar L :=
  let k := g.heap.length
  ({ g with heap := g.heap ++ [r], vec := g.vec ++ [k] } : Grammar L).insertGroup r.name k

/-- The operators of rules (`op::OPERATOR`, `htwolcpre3-parser.yy` 311–327). -/
inductive Op where
  | right
  | left
  | leftRight
  | notLeft
  deriving DecidableEq, Repr

/-- `TwolCGrammar::add_rule` for a pair (`TwolCGrammar.cc` 44–80). -/
def Grammar.addPair (o : Options) (g : Grammar L) (name : Sym) (p : Sym × Sym) (op : Op) (contexts : List L.T) : Grammar L :=
  let mk := fun k => Rule.make L k name p (getCenterPair L p) contexts
  match op with
  | .right => g.addRight o (mk .right)
  | .left => g.addLeft o (mk .left)
  | .leftRight => (g.addRight o (mk .right)).addLeft o (mk .left)
  | .notLeft => g.addOther (mk .notLeft)

/-- The name of the rule for one pair of a list (`TwolCGrammar.cc` 137–138). -/
def centerName (name : Sym) (p : Sym × Sym) : Sym := name ++ " CENTER=".toList ++ p.1 ++ ":".toList ++ p.2

/-- `TwolCGrammar::add_rule` for a list of pairs (`TwolCGrammar.cc` 122–174). -/
def Grammar.addPairs (o : Options) (g : Grammar L) (name : Sym) (ps : List (Sym × Sym)) (op : Op) (contexts : List L.T) : Grammar L :=
  ps.foldl (fun g p => g.addPair o (centerName name p) p op contexts) g

/-- `TwolCGrammar::add_rule` for a regular expression (`TwolCGrammar.cc` 82–120). -/
def Grammar.addRe (g : Grammar L) (name : Sym) (c : L.T) (op : Op) (contexts : List L.T) : Grammar L :=
  let mk := fun k => Rule.make L k name ([], []) (getCenter L c) contexts
  match op with
  | .right => g.addOther (mk .right)
  | .left => g.addOther (mk .left)
  | .leftRight => (g.addOther (mk .right)).addOther (mk .left)
  | .notLeft => g.addOther (mk .notLeft)

variable (L)

/-- The center of a rule in the text: pairs or a regular expression (`htwolcpre3-parser.yy` 277–298). -/
inductive Center where
  | pairs (ps : List (Sym × Sym))
  | re (c : L.T)

/-- A rule in the text (`htwolcpre3-parser.yy` 247–275): its name, center, operator, contexts (`left _ right`) and those after `except`. -/
structure Source where
  name : Sym
  center : Center L
  op : Op
  contexts : List (L.T × L.T)
  exceptions : List (L.T × L.T)

/-- `RULE_CONTEXTS` (`htwolcpre3-parser.yy` 329–348): the contexts are joined. -/
def joinContexts (cs : List (L.T × L.T)) : L.T := cs.foldl (fun t c => L.disjunct t (getContext L c.1 c.2)) L.nothing

variable {L}

/-- The action for `RULE` (`htwolcpre3-parser.yy` 247–275). -/
def Grammar.read (o : Options) (g : Grammar L) (s : Source L) : Grammar L :=
  let context := L.subtract (joinContexts L s.contexts) (joinContexts L s.exceptions)
  match s.center with
  | .pairs [p] => g.addPair o s.name p s.op [context]
  | .pairs ps => g.addPairs o s.name ps s.op [context]
  | .re c => g.addRe s.name c s.op [context]

/-- All rules of a text, one after the other (`RULE_LIST`, `htwolcpre3-parser.yy` 244–245). -/
def readRules (o : Options) (rs : List (Source L)) : Grammar L := rs.foldl (Grammar.read o) (Grammar.init L)

/-- `rule_transducer` after `compile` (`RuleContainer.cc` 36–47): only rules in the vector of a container are compiled. -/
def Grammar.compiled (g : Grammar L) (k : Nat) (r : Rule L) : L.T := if k ∈ g.vec then r.compile L else L.nothing

/-- The rules of a group that are not empty, with their transducers (`Rule.cc` 36–44). -/
def Grammar.members (g : Grammar L) (ks : List Nat) : List L.T :=
  ks.filterMap fun k => (g.heap[k]?).bind fun r => if r.isEmpty then none else some (g.compiled k r)

/-- `compile_and_store` (`TwolCGrammar.cc` 176–196) with the constructor of `Rule` for a group (`Rule.cc` 32–45) and `Rule::store` (92–114): the name and
the transducer of each group that has a rule that is not empty. -/
def Grammar.stored (g : Grammar L) : List (Sym × L.T) :=
  g.groups.filterMap fun e =>
    let v := g.members e.2
    if v = [] then none else some (e.1, v.foldl L.intersect (L.star L.any))

end Hfst.TwolcRule
