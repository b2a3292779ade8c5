import Verif.Model.Graph

/-!
# `HfstBasicTransducer`: sorting by distance and path lengths

Model of `TopologicalSort` (libhfst/src/implementations/HfstBasicTransducer.h:873-934) and of
libhfst/src/implementations/HfstBasicTransducer.cc:3305-3427.  Numbers are unbounded.  A set of states is a list; its order
does not matter.
-/
namespace Hfst.Basic

/-- `TopologicalSort` (libhfst/src/implementations/HfstBasicTransducer.h:873-876); the distance -1 is `none`. -/
structure TopSort where
  dist : List (Option Nat)
  levels : List (List Nat)

/-- Adding empty sets up to an index (libhfst/src/implementations/HfstBasicTransducer.h:903-907, 927-931). -/
def padTo (levels : List (List Nat)) (d : Nat) : List (List Nat) := levels ++ List.replicate (d + 1 - levels.length) []

/-- `set_state_at_distance` (libhfst/src/implementations/HfstBasicTransducer.h:887-919). -/
def TopSort.setAt (ts : TopSort) (s d : Nat) (overwrite : Bool) : Outcome TopSort :=
  let levels := padTo ts.levels d
  match ts.dist[s]? with
  | none => .throws
  | some none => .ok ⟨ts.dist.set s (some d), levels.modify d (setInsert · s)⟩
  | some (some p) =>
    if p ≠ d ∧ overwrite = true then
      if p < levels.length then
        .ok ⟨ts.dist.set s (some d), (levels.modify p (setErase · s)).modify d (setInsert · s)⟩
      else .throws
    else .ok ⟨ts.dist.set s (some d), levels.modify d (setInsert · s)⟩

/-- Setting each of the new states (libhfst/src/implementations/HfstBasicTransducer.cc:3351-3355). -/
def TopSort.setAll (d : Nat) (overwrite : Bool) : List Nat → TopSort → Outcome TopSort
  | [], ts => .ok ts
  | s :: ss, ts =>
    match ts.setAt s d overwrite with
    | .ok ts' => TopSort.setAll d overwrite ss ts'
    | .throws => .throws
    | .undefined => .undefined

/-- The targets of the transitions of some states (libhfst/src/implementations/HfstBasicTransducer.cc:3335-3347);
`new_states_found` is true exactly if there is one. -/
def newStates (g : Graph) : List Nat → List Nat → Outcome (List Nat)
  | [], found => .ok found
  | s :: ss, found =>
    match g.states[s]? with
    | none => .throws
    | some arcs => newStates g ss (arcs.foldl (fun f a => setInsert f a.target) found)

/-- The do-while loop of `topsort` (libhfst/src/implementations/HfstBasicTransducer.cc:3326-3357).  The first argument is the
number of rounds still allowed. -/
def topLoop (g : Graph) (overwrite : Bool) : Nat → Nat → TopSort → Outcome (List (List Nat))
  | 0, _, _ => .undefined
  | n + 1, d, ts =>
    let levels := padTo ts.levels d
    match levels[d]? with
    | none => .throws
    | some states =>
      match newStates g states [] with
      | .ok found =>
        match TopSort.setAll (d + 1) overwrite found ⟨ts.dist, levels⟩ with
        | .ok ts' => if found = [] then .ok ts'.levels else topLoop g overwrite n (d + 1) ts'
        | .throws => .throws
        | .undefined => .undefined
      | .throws => .throws
      | .undefined => .undefined

/-- `topsort` (libhfst/src/implementations/HfstBasicTransducer.cc:3305-3360); `overwrite` is `MaximumDistance`. -/
def topsort (fuel : Nat) (g : Graph) (overwrite : Bool) : Outcome (List (List Nat)) :=
  if g.states.length = 0 then .ok []
  else match TopSort.setAt ⟨List.replicate g.states.length none, []⟩ 0 0 overwrite with
    | .ok ts => topLoop g overwrite fuel 0 ts
    | .throws => .throws
    | .undefined => .undefined

/-- Is some state of the set final (libhfst/src/implementations/HfstBasicTransducer.cc:3380-3388, 3414-3423). -/
def anyFinal (g : Graph) (states : List Nat) : Bool := states.any fun s => (g.final s).isSome

/-- The loop of `longest_path_size` over the distances below the argument
(libhfst/src/implementations/HfstBasicTransducer.cc:3374-3389). -/
def longestBelow (g : Graph) (levels : List (List Nat)) : Nat → Int
  | 0 => -1
  | d + 1 => if anyFinal g ((levels[d]?).getD []) then d else longestBelow g levels d

/-- `longest_path_size` (libhfst/src/implementations/HfstBasicTransducer.cc:3364-3393). -/
def longestPathSize (fuel : Nat) (g : Graph) : Outcome Int :=
  match topsort fuel g true with
  | .ok levels => .ok (longestBelow g levels levels.length)
  | .throws => .throws
  | .undefined => .undefined

/-- The loop of `path_sizes` over the distances below the argument
(libhfst/src/implementations/HfstBasicTransducer.cc:3408-3424). -/
def sizesBelow (g : Graph) (levels : List (List Nat)) : Nat → List Nat
  | 0 => []
  | d + 1 => if anyFinal g ((levels[d]?).getD []) then d :: sizesBelow g levels d else sizesBelow g levels d

/-- `path_sizes` (libhfst/src/implementations/HfstBasicTransducer.cc:3397-3427). -/
def pathSizes (fuel : Nat) (g : Graph) : Outcome (List Nat) :=
  match topsort fuel g false with
  | .ok levels => .ok (sizesBelow g levels levels.length)
  | .throws => .throws
  | .undefined => .undefined

end Hfst.Basic
