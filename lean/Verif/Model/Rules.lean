import Verif.Model.Transducer

/-!
# Two-level, replace and restriction rules

Model of libhfst/src/HfstRules.cc, with the simplifications of `Verif.Model.Transducer`.

* A `StringPairSet` is the list of its elements in the order of iteration.
* The tests for transducers of different types are left out: all transducers have the same type here.
-/
namespace Hfst.Trans
open Hfst.Basic

/-- `HfstTransducer(const StringPairSet&, type, cyclic)` (libhfst/src/HfstTransducer.cc:1058-1074,
libhfst/src/implementations/TropicalWeightTransducer.cc:1739-1767). -/
def pairSet (ps : List (Sym × Sym)) (cyclic : Bool := false) : Outcome Graph :=
  if ps.any fun p => p.1.isEmpty || p.2.isEmpty then .throws
  else
    let final := if !ps.isEmpty && !cyclic then 1 else 0
    .ok (ps.foldl (fun g p => g.addTransition 0 ⟨final, p.1, p.2, 0⟩)
      { states := List.replicate (final + 1) [], finals := [(final, 0)], alphabet := [epsilon, unknown, identity] })

/-- The loop at the beginning of `two_level_if` (libhfst/src/HfstRules.cc:167-181). -/
def inputToAny (ms al : List (Sym × Sym)) : List (Sym × Sym) := al.filter fun a => ms.any fun m => a.1 = m.1

/-- `two_level_if` (libhfst/src/HfstRules.cc:154-210). -/
def twoLevelIf (B : Backend) (left right : Graph) (ms al : List (Sym × Sym)) : Outcome Graph :=
  (pairSet (inputToAny ms al)).bind fun center =>
  (pairSet al true).bind fun universal =>
  (pairSet ms).bind fun mappings =>
  (subtract B universal mappings).bind fun negMappings =>
  (intersect B center negMappings).bind fun center =>
  (concatenate B universal left).bind fun leftContext =>
  (concatenate B right universal).bind fun rightContext =>
  (concatenate B leftContext center).bind fun inside =>
  (concatenate B inside rightContext).bind fun inside =>
    subtract B universal inside

/-- `two_level_only_if` (libhfst/src/HfstRules.cc:214-256). -/
def twoLevelOnlyIf (B : Backend) (left right : Graph) (ms al : List (Sym × Sym)) : Outcome Graph :=
  (pairSet ms).bind fun center =>
  (pairSet al true).bind fun universal =>
  (concatenate B universal left).bind fun left =>
  (subtract B universal left).bind fun leftNeg =>
  (concatenate B right universal).bind fun right =>
  (subtract B universal right).bind fun rightNeg =>
  (concatenate B leftNeg center).bind fun rule =>
  (concatenate B rule universal).bind fun rule =>
  (concatenate B universal center).bind fun ruleRight =>
  (concatenate B ruleRight rightNeg).bind fun ruleRight =>
  (disjunct B rule ruleRight).bind fun rule =>
    subtract B universal rule

/-- `two_level_if_and_only_if` (libhfst/src/HfstRules.cc:258-266). -/
def twoLevelIff (B : Backend) (left right : Graph) (ms al : List (Sym × Sym)) : Outcome Graph :=
  (twoLevelIf B left right ms al).bind fun a =>
  (twoLevelOnlyIf B left right ms al).bind fun b =>
    intersect B a b

/-- `replace` (libhfst/src/HfstRules.cc:18-56), called by `replace_up` (`up`) and `replace_down` without a context
(libhfst/src/HfstRules.cc:441-453). -/
def replace (B : Backend) (t : Graph) (up optional : Bool) (al : List (Sym × Sym)) : Outcome Graph :=
  let proj := if up then inputProject B t else outputProject B t
  (pairSet al true).bind fun universal =>
  (concatenate B universal proj).bind fun tc =>
  (concatenate B tc universal).bind fun tc =>
  (subtract B universal tc).bind fun negated =>
  (concatenate B negated t).bind fun r =>
  (concatenate B (B.star r) negated).bind fun r =>
    if optional then disjunct B r universal else .ok r

/-- `left_replace_up` without a context (libhfst/src/HfstRules.cc:456-469). -/
def leftReplaceUp (B : Backend) (t : Graph) (optional : Bool) (al : List (Sym × Sym)) : Outcome Graph :=
  (replace B t true optional al).bind fun r => .ok (B.invert r)

/-- `"@_MARKER_@"` (libhfst/src/HfstRules.cc:583). -/
def marker : Sym := "@_MARKER_@".toList

/-- `TwolType` (libhfst/src/HfstTransducer.h:1812-1817). -/
inductive TwolType
  | right
  | left
  | both

/-- The third argument of the private `restriction`: 0, 1 and any other number (libhfst/src/HfstRules.cc:595-603). -/
inductive Direction
  | none
  | surface
  | deep

/-- Concatenation of several transducers, as in libhfst/src/HfstRules.cc:588-593, 611-618. -/
def concatenateAll (B : Backend) (g : Graph) : List Graph → Outcome Graph
  | [] => .ok g
  | h :: hs => (concatenate B g h).bind fun r => concatenateAll B r hs

/-- The loop over the contexts (libhfst/src/HfstRules.cc:607-620). -/
def contextUnion (B : Backend) (universal mt tmp : Graph) : List (Graph × Graph) → Graph → Outcome Graph
  | [], r => .ok r
  | c :: cs, r =>
    (concatenateAll B (single epsilon epsilon) [universal, c.1, mt, tmp, mt, c.2, universal]).bind fun ct =>
    (disjunct B r ct).bind fun r => contextUnion B universal mt tmp cs r

/-- `TheAlphabet - ( a - b ).substitute(marker,epsilon)` (libhfst/src/HfstRules.cc:626-631, 635-640, 646-656). -/
def without (B : Backend) (universal a b : Graph) : Outcome Graph :=
  (subtract B a b).bind fun r =>
  (r.substitute marker epsilon true true).bind fun r => subtract B universal r

/-- `restriction` (libhfst/src/HfstRules.cc:551-664).  The second result is the mapping of the caller afterwards, since
`input_project` and `output_project` change their operand. -/
def restriction (B : Backend) (contexts : List (Graph × Graph)) (mapping : Graph) (al : List (Sym × Sym)) (twol : TwolType)
    (direction : Direction) : Outcome (Graph × Graph) :=
  if contexts.isEmpty then .throws
  else
    let mt := single marker marker
    (pairSet al true).bind fun universal =>
    (concatenateAll B (single epsilon epsilon) [universal, mt, mapping, mt, universal]).bind fun l1 =>
    let mapping' := match direction with
      | .none => mapping
      | .surface => inputProject B mapping
      | .deep => outputProject B mapping
    let tmp := match direction with
      | .none => Outcome.ok universal
      | .surface => compose B mapping' universal
      | .deep => compose B universal mapping'
    tmp.bind fun tmp =>
    (contextUnion B universal mt tmp contexts Graph.init).bind fun l2 =>
    (match twol with
      | .right => without B universal l1 l2
      | .left => without B universal l2 l1
      | .both =>
        (without B universal l1 l2).bind fun a => (without B universal l2 l1).bind fun b => intersect B a b).bind fun r =>
      -- `mapping.input_project().compose(pi_star)` composes the mapping itself before it is copied
      .ok (r, match direction with
        | .none => mapping
        | .surface => tmp
        | .deep => mapping')

end Hfst.Trans
