import Verif.Model.Convert
import Verif.Model.SfstBasic
import Verif.Model.OlWalk

/-!
# Extraction of paths from OpenFst and SFST transducers

`HfstTransducer::extract_paths` and `extract_paths_fd` with a set for the results (`libhfst/src/HfstTransducer.cc` 2582–2849), and the
functions of the back-ends with tropical weights, with log weights and without weights that they call.  The three functions are the same
text up to three things, which are the fields `shared`, `modulus` and `emptyLast` below.
-/
namespace Hfst.Extract
open Hfst.Basic (Outcome Sym)
open Hfst.Conv (OArc OState Ofst SymTable)

/-- What the extraction sees of a transducer: its start (`t->Start()`, `t->root_node()`), its states, the table of symbols from which the
flags are taken, and the string of a label.  `shared`: the map of all visitations is one map that is passed by reference
(`SfstTransducer.cc` 659), not a copy for each call (`TropicalWeightTransducer.cc` 2837).  `modulus`: where the counts of visitations start
again from zero.  `emptyLast`: the empty path is reported at the end (`TropicalWeightTransducer.cc` 2954–2960). -/
structure View where
  start : Option Nat
  node : Nat → Option OState
  symbols : SymTable
  name : Nat → Sym
  shared : Bool
  modulus : Nat
  emptyLast : Bool

/-- A transducer with tropical weights, as `TropicalWeightTransducer.cc` 2835–2965 sees it.  A count is an `unsigned short` (2837–2838); the names
of both labels are from the input symbols (2908, 2913). -/
def tropical (o : Ofst) (st : SymTable) : View := ⟨o.start, fun q => o.states[q]?, st, st.symbol, false, 65536, true⟩

/-- A transducer with log weights, as `LogWeightTransducer.cc` 2159–2305 sees it.  There is nothing about the empty path after the search. -/
def logarithmic (o : Ofst) (st : SymTable) : View := ⟨o.start, fun q => o.states[q]?, st, st.symbol, false, 65536, false⟩

/-- `Alphabet::write_char` with brackets (`back-ends/sfst/alphabet.cc` 254–276) and the replacement of `<>`
(`SfstTransducer.cc` 729–732).  A byte is shown as the character with this number. -/
def writeChar (codes : List (Nat × Sym)) (c : Nat) : Sym :=
  match Hfst.Basic.mapGet codes c with
  | some s => if s = Hfst.Sfst.sfstEpsilon then Hfst.Basic.epsilon else s
  | none => if 32 ≤ c ∧ c < 256 then [Char.ofNat c] else '\\' :: (toString c).toList

/-- An SFST transducer, as `SfstTransducer.cc` 657–780 sees it.  A count is an `int` (249); the end of its range is not modelled. -/
def sfst (t : Hfst.Sfst.Shared) : View :=
  ⟨some 0,
    fun q => if q < t.graph.size then
        some ⟨(t.graph.node q).iter.map fun a => ⟨a.1.lower, a.1.upper, 0, a.2⟩, if (t.graph.node q).final then some 0 else none⟩
      else none,
    t.codes, writeChar t.codes, true, 2 ^ 31, true⟩

/-- `get_flag_diacritics` (`TropicalWeightTransducer.cc` 3218–3231, `LogWeightTransducer.cc` 2318–2329, `SfstTransducer.cc` 1063–1073).  A `none`
is a symbol on which `define_diacritic` runs into undefined behaviour. -/
def View.flagTable (V : View) : Option (Flags.FdTable Nat) := Flags.FdTable.empty.defineAll (V.symbols.filter fun e => Flags.isDiacritic e.2)

/-- A path that is reported: its weight and its pairs of symbols (`HfstTwoLevelPath`). -/
abbrev Found := Int × List (Sym × Sym)

/-- How the caller wants the paths: the number of cycles, the table of flags if they are obeyed, and whether flags are left out.  The same as for
the optimized format. -/
abbrev Wanted := Hfst.Ol.Extraction

/-- The string of a label (`TropicalWeightTransducer.cc` 2902–2913).  Without a table of flags, `filter_fd` is a null pointer that is used. -/
def View.shownName (V : View) (E : Wanted) (x : Nat) : Outcome Sym :=
  if E.filter then
    match E.fd with
    | none => .undefined
    | some fd => .ok (if (fd.getOperation x).isSome then [] else V.name x)
  else .ok (V.name x)

/-- Where an arc is put: before the first one whose target has more visitations (`TropicalWeightTransducer.cc` 2865–2874). -/
def View.insertArc (V : View) (all : List Nat) (a : OArc) : List OArc → List OArc
  | [] => [a]
  | b :: l => if all.count a.next % V.modulus < all.count b.next % V.modulus then a :: b :: l else b :: V.insertArc all a l

/-- The arcs in the order of the visitations of their targets (`TropicalWeightTransducer.cc` 2861–2875). -/
def View.sortArcs (V : View) (all : List Nat) (arcs : List OArc) : List OArc := arcs.foldl (fun l a => V.insertArc all a l) []

/-- A callback: its state, a path and whether it is accepted give the new state, whether to go on with the search, and whether to go on with the
path (`ExtractStringsCb::operator()`, `libhfst/src/HfstExtractStrings.h` 173–201). -/
abbrev Callback (σ : Type) := σ → Found → Bool → σ × Bool × Bool

/-- A call for the target of an arc: weight, path, flags, all visitations and the state of the callback (`TropicalWeightTransducer.cc` 2917–2919). -/
abbrev Call (σ : Type) := Nat → Int → List (Sym × Sym) → Flags.FdState → List Nat → σ → Outcome (Bool × List Nat × σ)

/-- The loop over the arcs (`TropicalWeightTransducer.cc` 2877–2925). -/
def View.arcsLoop {σ : Type} (V : View) (E : Wanted) (call : Call σ) (w : Int) (spv : List (Sym × Sym)) (fs : Flags.FdState) :
    List OArc → List Nat → σ → Outcome (Bool × List Nat × σ)
  | [], all, c => .ok (true, all, c)
  | a :: l, all, c =>
    (E.flags fs a.ilabel).bind fun r => match r with
      | none => V.arcsLoop E call w spv fs l all c
      | some fs' =>
        (V.shownName E a.ilabel).bind fun x => (V.shownName E a.olabel).bind fun y =>
          (call a.next (w + a.weight) (spv ++ [(x, y)]) fs' all c).bind fun (b, all', c') =>
            if b then V.arcsLoop E call w spv fs l (if V.shared then all' else all) c' else .ok (false, if V.shared then all' else all, c')

/-- The static function `extract_paths` (`TropicalWeightTransducer.cc` 2835–2929).  `trail` is the list of the states on the path: the count of a state
on the path is taken back when the function returns, whether the maps are copies or not.  `all` is the list of all states that were visited. -/
def View.search {σ : Type} (V : View) (E : Wanted) (cb : Callback σ) : Nat → List Nat → Call σ
  | 0, _, _, _, _, _, _, _ => .undefined
  | n + 1, trail, s, w, spv, fs, all, c =>
    if 0 ≤ E.cycles ∧ E.cycles < (trail.count s % V.modulus : Nat) then .ok (true, all, c)
    else match V.node s with
      | none => .undefined
      | some d =>
        match (if spv = [] then (c, true, true) else cb c (w + d.final.getD 0, spv) d.final.isSome) with
        | (c', goOn, further) =>
          if !goOn || !further then .ok (goOn, s :: all, c')
          else V.arcsLoop E (V.search E cb n (s :: trail)) w spv fs (V.sortArcs (s :: all) d.arcs) (s :: all) c'

/-- `extract_paths` of the back-end (`TropicalWeightTransducer.cc` 2933–2965, `LogWeightTransducer.cc` 2282–2305, `SfstTransducer.cc` 752–780). -/
def View.extract {σ : Type} (V : View) (E : Wanted) (cb : Callback σ) (fuel : Nat) (c : σ) : Outcome σ :=
  match V.start with
  | none => .ok c
  | some q =>
    (V.search E cb fuel [] q 0 [] (Flags.FdState.init (match E.fd with
      | none => 0
      | some fd => fd.numFeatures)) [] c).bind fun (_, _, c') =>
        if V.emptyLast then
          match (V.node q).bind (·.final) with
          | none => .ok c'
          | some f => .ok (cb c' (f, []) true).1
        else .ok c'

/-- `ExtractStringsCb_` (`HfstTransducer.cc` 2698–2715).  The set is a list without repetitions, the last found first. -/
def collect (maxNum : Int) : Callback (List Found) := fun c p final =>
  let c' := if final then Hfst.Basic.setInsert c p else c
  (c', decide (maxNum < 1 ∨ (c'.length : Int) < maxNum), true)

/-- `HfstTransducer::extract_paths(results, max_num, cycles)` and `extract_paths_fd(results, max_num, cycles, filter_fd)`
(`HfstTransducer.cc` 2828–2849, 2582–2696): `obey` tells which.  `cyclic` is what `is_cyclic` says. -/
def extractPaths (V : View) (cyclic obey leaveOut : Bool) (maxNum cycles : Int) (fuel : Nat) (results : List Found) : Outcome (List Found) :=
  if cyclic = true ∧ maxNum < 1 ∧ cycles < 0 then .throws
  else if obey then
    match V.flagTable with
    | none => .undefined
    | some fd => V.extract ⟨cycles, some fd, leaveOut⟩ (collect maxNum) fuel results
  else V.extract ⟨cycles, none, false⟩ (collect maxNum) fuel results

end Hfst.Extract
