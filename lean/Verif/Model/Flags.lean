import Verif.Model.StdString

/-!
# Flag diacritics

Model of libhfst/src/HfstFlagDiacritics.{h,cc} (the engine with numbers, used by
optimized lookup and path extraction) and libhfst/src/HfstLookupFlagDiacritics.cc
(the engine with strings, used by `HfstBasicTransducer::lookup`).
-/
namespace Hfst.Flags
open Hfst.StdString

/-- `enum FdOperator` (libhfst/src/HfstFlagDiacritics.h:28). -/
inductive FdOperator | P | N | R | D | C | U
  deriving DecidableEq, Repr

/-- `FdOperation::char_to_operator` (libhfst/src/HfstFlagDiacritics.cc:28-40);
`none` is the `throw`. -/
def charToOperator (c : Char) : Option FdOperator :=
  if c = 'P' then some .P
  else if c = 'N' then some .N
  else if c = 'R' then some .R
  else if c = 'D' then some .D
  else if c = 'C' then some .C
  else if c = 'U' then some .U
  else none

/-- `FdOperation::is_diacritic` (libhfst/src/HfstFlagDiacritics.cc:43-80).
`FlagDiacriticTable::is_genuine_diacritic` (libhfst/src/HfstLookupFlagDiacritics.cc:19-57) is the
same text and is modelled by the same function. -/
def isDiacritic (s : Str) : Bool :=
  if s.length < 5 then false
  else if charAt s 2 ≠ some '.' then false
  else if charAt s 0 ≠ some '@' then false
  else if charAt s (s.length - 1) ≠ some '@' then false
  else match charAt s 1 with
    | none => false
    | some o =>
      if (charToOperator o).isNone then false
      else if findLast s '.' = some 2 then
        if o ≠ 'R' ∧ o ≠ 'D' ∧ o ≠ 'C' then false else true
      else true

/-- `FdOperation::get_operator` (libhfst/src/HfstFlagDiacritics.cc:82-86). -/
def getOperator (s : Str) : Option Str := substr s 1 1

/-- `FdOperation::get_feature` (libhfst/src/HfstFlagDiacritics.cc:88-101). -/
def getFeature (s : Str) : Option Str :=
  let past := match find s '.' 3 with
    | none => usub s.length 1
    | some p => p
  substr s 3 (usub past 3)

/-- `FdOperation::get_value` (libhfst/src/HfstFlagDiacritics.cc:103-120). -/
def getValue (s : Str) : Option Str :=
  match find s '.' (succPos (find s '.' 0)) with
  | none => some []
  | some q => substr s (q + 1) (usub (usub s.length 1) (q + 1))

/-- `FdOperation::has_value` (libhfst/src/HfstFlagDiacritics.cc:122-126). -/
def hasValue (s : Str) : Bool :=
  (find s '.' (succPos (find s '.' 0))).isSome

/-- `FdOperation::find_diacritic` (libhfst/src/HfstFlagDiacritics.cc:128-147); the result is the
position and the reported length, `none` is `npos`. -/
def findDiacritic (s : Str) : Option (Nat × Nat) :=
  match find s '@' 0 with
  | none => none
  | some start =>
    match find s '@' (start + 1) with
    | none => none
    | some stop =>
      match substr s start (usub stop start) with
      | none => none
      | some t => if isDiacritic t then some (start, usub stop start) else none

/-! ## The engine with numbers -/

/-- `class FdOperation` (libhfst/src/HfstFlagDiacritics.h:33-63), without the name string, which
no decision depends on. -/
structure FdOperation where
  op : FdOperator
  feature : Nat
  value : Int
  deriving DecidableEq, Repr

/-- Conversion to `short` (`FdValue`, libhfst/src/HfstFlagDiacritics.h:31): values above 32767 wrap. -/
def toShort (n : Int) : Int := (n + 32768) % 65536 - 32768

/-- `hfst::size_t_to_ushort` (libhfst/src/HfstDataTypes.cc:117-124): throws (`none`) above 65535. -/
def sizeToUShort (n : Nat) : Option Nat := if n ≤ 65535 then some n else none

/-- The four maps of `FdTable<T>` (libhfst/src/HfstFlagDiacritics.h:74-79).  Association lists,
newest entry first; a key occurs at most once in the first two. -/
structure FdTable (T : Type) where
  featureMap : List (Str × Nat)
  valueMap : List (Str × Int)
  operations : List (T × FdOperation)
  symbolMap : List (Str × T)

/-- `FdTable()` (libhfst/src/HfstFlagDiacritics.h:81-82). -/
def FdTable.empty {T : Type} : FdTable T :=
  { featureMap := [], valueMap := [([], 0)], operations := [], symbolMap := [] }

/-- The feature and value strings computed in `define_diacritic`
(libhfst/src/HfstFlagDiacritics.h:89-110) and in `split_diacritic`
(libhfst/src/HfstLookupFlagDiacritics.cc:86-111): the third component tells whether there is a second
full stop. -/
def splitDiacritic (s : Str) : Option (FdOperator × Str × Option Str) :=
  match (charAt s 1).bind charToOperator with
  | none => none
  | some op =>
    match find s '.' 3 with
    | none =>
      if op = .C ∨ op = .D ∨ op = .R then
        (substr s 3 (usub (usub (usub s.length 1) 2) 1)).map fun f => (op, f, none)
      else none
    | some q =>
      match substr s 3 (usub (usub q 2) 1), substr s (q + 1) (usub (usub (usub s.length 1) q) 1) with
      | some f, some v => some (op, f, some v)
      | _, _ => none

/-- Insertion of a missing feature (libhfst/src/HfstFlagDiacritics.h:112-116). -/
def addFeature (m : List (Str × Nat)) (f : Str) : Option (List (Str × Nat)) :=
  if (m.lookup f).isSome then some m
  else (sizeToUShort m.length).map fun n => (f, n) :: m

/-- Insertion of a missing value (libhfst/src/HfstFlagDiacritics.h:117-121); the `unsigned short` is
stored in a `short`. -/
def addValue (m : List (Str × Int)) (v : Str) : Option (List (Str × Int)) :=
  if (m.lookup v).isSome then some m
  else (sizeToUShort (m.length + 1)).map fun n => (v, toShort (n : Int)) :: m

/-- `FdTable::define_diacritic` (libhfst/src/HfstFlagDiacritics.h:84-126).  `none`: the call throws (not a
diacritic, or more than 65535 features or values). -/
def FdTable.define {T : Type} (t : FdTable T) (symbol : T) (s : Str) : Option (FdTable T) :=
  if isDiacritic s then
    match splitDiacritic s with
    | none => none
    | some (op, f, v?) =>
      let v := v?.getD []
      match addFeature t.featureMap f, addValue t.valueMap v with
      | some fm, some vm =>
        some { featureMap := fm
               valueMap := vm
               operations := (symbol, { op := op, feature := (fm.lookup f).getD 0, value := (vm.lookup v).getD 0 }) :: t.operations
               symbolMap := (s, symbol) :: t.symbolMap }
      | _, _ => none
  else none

/-- Definition of a list of diacritics one after the other, as done for the symbols of an alphabet
(libhfst/src/implementations/optimized-lookup/transducer.cc:74-93). -/
def FdTable.defineAll {T : Type} (t : FdTable T) : List (T × Str) → Option (FdTable T)
  | [] => some t
  | (x, s) :: rest => (t.define x s).bind fun t' => t'.defineAll rest

/-- `FdTable::get_operation(T)` (libhfst/src/HfstFlagDiacritics.h:149-158). -/
def FdTable.getOperation {T : Type} [BEq T] (t : FdTable T) (x : T) : Option FdOperation :=
  t.operations.lookup x

/-- `FdTable::num_features` (libhfst/src/HfstFlagDiacritics.h:128). -/
def FdTable.numFeatures {T : Type} (t : FdTable T) : Nat := t.featureMap.length

/-- `FdState<T>` (libhfst/src/HfstFlagDiacritics.h:203-221): the vector of values and the error flag. -/
structure FdState where
  values : List Int
  errorFlag : Bool
  deriving DecidableEq, Repr

/-- `FdState(const FdTable&)` (libhfst/src/HfstFlagDiacritics.h:214-217). -/
def FdState.init (numFeatures : Nat) : FdState :=
  { values := List.replicate numFeatures 0, errorFlag := false }

/-- `FdState::apply_operation(const FdOperation&)` (libhfst/src/HfstFlagDiacritics.h:243-288).
`none`: `values[feature]` is outside the vector (undefined behaviour).  Otherwise the returned boolean and
the new state. -/
def FdState.apply (st : FdState) (o : FdOperation) : Option (Bool × FdState) :=
  match st.values[o.feature]? with
  | none => none
  | some cur =>
    let put (v : Int) : FdState := { st with values := st.values.set o.feature v }
    some <| match o.op with
      | .P => (true, put o.value)
      | .N => (true, put (toShort (-1 * o.value)))
      | .R => if o.value = 0 then (decide (cur ≠ 0), st) else (decide (cur = o.value), st)
      | .D => if o.value = 0 then (decide (cur = 0), st) else (decide (cur ≠ o.value), st)
      | .C => (true, put 0)
      | .U => if cur = 0 ∨ cur = o.value ∨ (cur < 0 ∧ cur * (-1) ≠ o.value)
              then (true, put o.value) else (false, st)

/-- `FdState::apply_operation(T)` (libhfst/src/HfstFlagDiacritics.h:236-242). -/
def FdState.applySymbol {T : Type} [BEq T] (t : FdTable T) (st : FdState) (x : T) :
    Option (Bool × FdState) :=
  match t.getOperation x with
  | some o => st.apply o
  | none => some (true, st)

/-- `FdState::reset` (libhfst/src/HfstFlagDiacritics.h:298-303). -/
def FdState.reset (numFeatures : Nat) (_st : FdState) : FdState :=
  { values := List.replicate numFeatures 0, errorFlag := false }

/-- `FdState::assign_values` (libhfst/src/HfstFlagDiacritics.h:228-234). -/
def FdState.assign (numFeatures : Nat) (st : FdState) (vals : List Int) : FdState :=
  { values := vals, errorFlag := st.errorFlag || decide (vals.length ≠ numFeatures) }

/-- The loop of `FdTable::is_valid_string(const std::vector<T>&)`
(libhfst/src/HfstFlagDiacritics.h:169-173): stops at the first refused symbol. -/
def FdTable.runSymbols {T : Type} [BEq T] (t : FdTable T) (st : FdState) : List T → Option FdState
  | [] => some st
  | x :: xs =>
    match st.applySymbol t x with
    | none => none
    | some (true, st') => t.runSymbols st' xs
    | some (false, st') => some st'

/-- `FdTable::is_valid_string(const std::vector<T>&)` (libhfst/src/HfstFlagDiacritics.h:165-175). -/
def FdTable.isValidString {T : Type} [BEq T] (t : FdTable T) (symbols : List T) : Option Bool :=
  (t.runSymbols (FdState.init t.numFeatures) symbols).map fun st => !st.errorFlag

/-- Whether every symbol of a path is let through by the engine with numbers, as used by optimized lookup
(libhfst/src/implementations/optimized-lookup/transducer.cc:464-510 follows a flag transition only if
`apply_operation` returns true) and path extraction (libhfst/src/implementations/HfstOlTransducer.cc:343-353).
`none` is undefined behaviour. -/
def FdTable.passes {T : Type} [BEq T] (t : FdTable T) (st : FdState) : List T → Option Bool
  | [] => some true
  | x :: xs =>
    match st.applySymbol t x with
    | none => none
    | some (true, st') => t.passes st' xs
    | some (false, _) => some false

/-! ## The engine with strings -/

/-- Instance data of `FlagDiacriticTable`: `feature_values`, `feature_polarities` and `error_flag`
(libhfst/src/HfstLookupFlagDiacritics.cc:114-187).  The first two maps always have the same keys, so they
are one association list of (feature, value, polarity). -/
structure SFlags where
  vals : List (Str × (Str × Bool))
  errorFlag : Bool
  deriving DecidableEq, Repr

/-- `FlagDiacriticTable()` and `reset` (libhfst/src/HfstLookupFlagDiacritics.cc:114-116, 247-252). -/
def SFlags.init : SFlags := { vals := [], errorFlag := false }

/-- `set_positive_value` / `set_negative_value` (libhfst/src/HfstLookupFlagDiacritics.cc:126-137). -/
def SFlags.put (t : SFlags) (f v : Str) (pol : Bool) : SFlags :=
  { t with vals := (f, (v, pol)) :: t.vals.filter (fun e => e.1 ≠ f) }

/-- `disallow(feature, value)` (libhfst/src/HfstLookupFlagDiacritics.cc:138-145). -/
def SFlags.disallowValue (t : SFlags) (f v : Str) : SFlags :=
  match t.vals.lookup f with
  | none => t
  | some (w, pol) => if w = v then { t with errorFlag := t.errorFlag || pol } else t

/-- `disallow(feature)` (libhfst/src/HfstLookupFlagDiacritics.cc:146-150). -/
def SFlags.disallow (t : SFlags) (f : Str) : SFlags :=
  match t.vals.lookup f with
  | none => t
  | some _ => { t with errorFlag := true }

/-- `require(feature, value)` (libhfst/src/HfstLookupFlagDiacritics.cc:151-163). -/
def SFlags.requireValue (t : SFlags) (f v : Str) : SFlags :=
  match t.vals.lookup f with
  | none => { t with errorFlag := true }
  | some (w, pol) => if w ≠ v then { t with errorFlag := true } else { t with errorFlag := t.errorFlag || !pol }

/-- `require(feature)` (libhfst/src/HfstLookupFlagDiacritics.cc:164-168). -/
def SFlags.require (t : SFlags) (f : Str) : SFlags :=
  match t.vals.lookup f with
  | none => { t with errorFlag := true }
  | some _ => t

/-- `unify` (libhfst/src/HfstLookupFlagDiacritics.cc:169-182). -/
def SFlags.unify (t : SFlags) (f v : Str) : SFlags :=
  let t' := match t.vals.lookup f with
    | none => t.put f v true
    | some (w, pol) => if w ≠ v then (if pol then t else t.put f v true) else t
  t'.requireValue f v

/-- `clear` (libhfst/src/HfstLookupFlagDiacritics.cc:183-187). -/
def SFlags.clear (t : SFlags) (f : Str) : SFlags :=
  { t with vals := t.vals.filter (fun e => e.1 ≠ f) }

/-- `insert_symbol` (libhfst/src/HfstLookupFlagDiacritics.cc:195-242).  The static maps filled by
`split_diacritic` are functions of the symbol and are recomputed here.  Only P, N and U read the value of a
symbol without checking that it has one; `is_genuine_diacritic` guarantees that it has. -/
def SFlags.insertSymbol (t : SFlags) (s : Str) : SFlags :=
  if isDiacritic s then
    match splitDiacritic s with
    | none => t
    | some (.P, f, v?) => t.put f (v?.getD []) true
    | some (.N, f, v?) => t.put f (v?.getD []) false
    | some (.D, f, none) => t.disallow f
    | some (.D, f, some v) => t.disallowValue f v
    | some (.R, f, none) => t.require f
    | some (.R, f, some v) => t.requireValue f v
    | some (.C, f, _) => t.clear f
    | some (.U, f, v?) => t.unify f (v?.getD [])
  else t

/-- The loop of `FlagDiacriticTable::is_valid_string` (libhfst/src/HfstLookupFlagDiacritics.cc:257-264). -/
def SFlags.run (t : SFlags) : List Str → Bool
  | [] => true
  | s :: rest =>
    let t' := t.insertSymbol s
    if t'.errorFlag then false else t'.run rest

/-- `FlagDiacriticTable::is_valid_string` (libhfst/src/HfstLookupFlagDiacritics.cc:254-266). -/
def sIsValidString (w : List Str) : Bool := SFlags.init.run w

/-- `FlagDiacriticTable::filter_diacritics` (libhfst/src/HfstLookupFlagDiacritics.cc:268-280). -/
def filterDiacritics (w : List Str) : List Str :=
  w.foldl (fun acc s => if isDiacritic s then acc else acc ++ [s]) []

/-! ## Removing flags (libhfst/src/HfstSymbolDefs.cc) -/

/-- `remove_flags(const StringVector&)` (libhfst/src/HfstSymbolDefs.cc:211-222). -/
def removeFlags (v : List Str) : List Str :=
  v.foldl (fun acc s => if isDiacritic s then acc else acc ++ [s]) []

/-- `remove_flags(const StringPairVector&)` (libhfst/src/HfstSymbolDefs.cc:224-236): a pair is dropped if
either side is a flag. -/
def removeFlagsPairs (v : List (Str × Str)) : List (Str × Str) :=
  v.foldl (fun acc p => if !isDiacritic p.1 && !isDiacritic p.2 then acc ++ [p] else acc) []

/-- `remove_flags(const HfstTwoLevelPath&)` (libhfst/src/HfstSymbolDefs.cc:202-208): the weight is kept. -/
def removeFlagsPath {W : Type} (p : W × List (Str × Str)) : W × List (Str × Str) :=
  (p.1, removeFlagsPairs p.2)

end Hfst.Flags
