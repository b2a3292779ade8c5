import Verif.Model.Transducer

/-!
# Harmonization of the flag diacritics of two transducers

Model of libhfst/src/HfstTransducer.cc:3055-3178, 3405-3435, and of the use of it in
tools/src/hfst-concatenate.cc, hfst-conjunct.cc and hfst-subtract.cc.

Simplification: the transducers are graphs.  The code converts to `HfstBasicTransducer` and back (that this keeps the
transducer is properties C81, C82 and C87).
-/
namespace Hfst.FlagHarm
open Hfst.StdString Hfst.Basic

/-- `has_flags` and `has_flag_diacritics` (libhfst/src/HfstTransducer.cc:3103-3121). -/
def hasFlags (g : Graph) : Bool := g.alphabet.any Flags.isDiacritic

/-- The flags that `check_for_missing_flags_in(another, missing_flags, false)` collects
(libhfst/src/HfstTransducer.cc:3055-3078). -/
def missingFlags (g another : Graph) : List Sym :=
  another.alphabet.filter fun x => Flags.isDiacritic x && !g.alphabet.contains x

/-- The loop over the missing flags for one state (libhfst/src/HfstTransducer.cc:3091-3096). -/
def insertAt (flags : List Sym) (g : Graph) (s : Nat) : Graph :=
  flags.foldl (fun g x => g.addTransition s ⟨s, x, x, 0⟩) g

/-- `insert_freely_missing_flags_from` (libhfst/src/HfstTransducer.cc:3080-3101). -/
def insertMissing (g another : Graph) : Graph :=
  (List.range g.states.length).foldl (insertAt (missingFlags g another)) g

/-- `add_suffix_to_feature_name` (libhfst/src/HfstTransducer.cc:3123-3136); `none`: `substr` throws. -/
def addSuffix (x : Sym) (suffix : Str) : Option Sym :=
  match Flags.getOperator x, Flags.getFeature x, Flags.getValue x with
  | some o, some f, some v =>
    some (['@'] ++ o ++ ['.'] ++ f ++ suffix ++ (if Flags.hasValue x then '.' :: v else []) ++ ['@'])
  | _, _, _ => none

/-- The conditional expressions in `rename_flag_diacritics` (libhfst/src/HfstTransducer.cc:3157-3165).  For a flag
`addSuffix` always gives a name (`addSuffix_spell`), so `getD` is never used. -/
def renameSym (suffix : Str) (x : Sym) : Sym :=
  if Flags.isDiacritic x then (addSuffix x suffix).getD x else x

/-- The new transition (libhfst/src/HfstTransducer.cc:3154-3167). -/
def renameArc (suffix : Str) (a : Arc) : Arc := { a with inp := renameSym suffix a.inp, out := renameSym suffix a.out }

/-- The inner loop of `rename_flag_diacritics` (libhfst/src/HfstTransducer.cc:3150-3168). -/
def renameState (suffix : Str) (s : Nat) (l : List Arc) (copy : Graph) : Graph :=
  l.foldl (fun c a => c.addTransition s (renameArc suffix a)) copy

/-- The final weight of a state is copied (libhfst/src/HfstTransducer.cc:3170-3173). -/
def copyFinal (g : Graph) (s : Nat) (copy : Graph) : Graph :=
  match g.final s with
  | none => copy
  | some w => copy.setFinal s w

/-- The outer loop of `rename_flag_diacritics` (libhfst/src/HfstTransducer.cc:3148-3176). -/
def renameLoop (suffix : Str) (g : Graph) : Nat → List (List Arc) → Graph → Graph
  | _, [], copy => copy
  | s, l :: ls, copy => renameLoop suffix g (s + 1) ls (copyFinal g s (renameState suffix s l copy))

/-- `rename_flag_diacritics` (libhfst/src/HfstTransducer.cc:3138-3178).  The copy starts empty; its alphabet gets the
symbols of the transitions. -/
def rename (suffix : Str) (g : Graph) : Graph :=
  renameLoop suffix g 0 g.states (Graph.init.addStateN g.maxState)

/-- `harmonize_flag_diacritics` (libhfst/src/HfstTransducer.cc:3405-3435) for transducers of the same type.
`removeIllegal` stands for `remove_illegal_flag_paths` (lines 4470-4541), which is not modelled. -/
def harmonizeFlags (removeIllegal : Graph → Graph) (insertRenamed : Bool) (g another : Graph) : Graph × Graph :=
  if hasFlags g && hasFlags another then
    let g1 := rename "_1".toList g
    let a1 := rename "_2".toList another
    if insertRenamed then
      let g2 := insertMissing g1 a1
      let a2 := insertMissing a1 g2
      (removeIllegal g2, a2)
    else (g1, a1)
  else if hasFlags g && insertRenamed then (g, insertMissing another g)
  else if hasFlags another && insertRenamed then (insertMissing g another, another)
  else (g, another)

/-- The body of the loop of hfst-concatenate with the option -F (tools/src/hfst-concatenate.cc:216-258), for
transducers of the same type: the result and the second transducer, which may be used again.  `concat` is
`HfstTransducer::concatenate`. -/
def concatenateStep {α : Type} (concat : Graph → Graph → α) (first second : Graph) : Option (α × Graph) :=
  if hasFlags first && hasFlags second then
    let r := harmonizeFlags id false first second
    some (concat r.1 r.2, r.2)
  else some (concat first second, second)

/-- The body of the loop of hfst-conjunct with the option -F (tools/src/hfst-conjunct.cc:210-230), for transducers of the same
type. -/
def conjunctStep (B : Trans.Backend) (removeIllegal : Graph → Graph) (first second : Graph) : Outcome Graph :=
  if hasFlags first || hasFlags second then
    let r := harmonizeFlags removeIllegal true first second
    Trans.intersect B r.1 r.2
  else Trans.intersect B first second

/-- The body of the loop of hfst-subtract with the option -F (tools/src/hfst-subtract.cc:212-238), for transducers of the same
type. -/
def subtractStep (B : Trans.Backend) (removeIllegal : Graph → Graph) (first second : Graph) : Outcome Graph :=
  if hasFlags first && hasFlags second then
    let r := harmonizeFlags removeIllegal true first second
    Trans.subtract B r.1 r.2
  else Trans.subtract B first second

end Hfst.FlagHarm
