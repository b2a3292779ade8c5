import Verif.Model.Graph
import Verif.Model.Flags

/-!
# Optimized-lookup transducers: header, alphabet, tables and the binary file

Model of libhfst/src/implementations/optimized-lookup/transducer.h:125-777 and
libhfst/src/implementations/optimized-lookup/transducer.cc:24-93, 723-734, 846-867.

* Numbers are written as on a little-endian machine with 16-bit `unsigned short` and 32-bit `unsigned int` and `float`.
* A weight is given by its 32 bits.
* What a failed read leaves in a variable is a parameter (`junk`).
* The feature tables for flag diacritics and the encoder, which are computed from the symbols, are not part of this file.
-/
namespace Hfst.Ol
open Hfst.Basic (Outcome)

abbrev Bytes := List UInt8

/-- The bytes of a number (`reinterpret_cast<const char*>`, e.g.
libhfst/src/implementations/optimized-lookup/transducer.h:158-160); the first argument is their count. -/
def leBytes : Nat → Nat → Bytes
  | 0, _ => []
  | k + 1, n => UInt8.ofNat (n % 256) :: leBytes k (n / 256)

/-- The number that bytes stand for (e.g. libhfst/src/implementations/optimized-lookup/transducer.h:151-157). -/
def leNat : Bytes → Nat
  | [] => 0
  | b :: bs => b.toNat + 256 * leNat bs

/-- An input stream: what is left to read, `eofbit` and `failbit` (C++ standard). -/
structure In where
  rest : Bytes
  eof : Bool
  fail : Bool
  deriving DecidableEq

/-- `is.read(p, k)` (C++ standard; used in libhfst/src/implementations/optimized-lookup/transducer.h:155, 164, 660): the
bytes, if there were enough, and the stream afterwards. -/
def In.read (k : Nat) (s : In) : Option Bytes × In :=
  if s.eof = true ∨ s.fail = true then (none, { s with fail := true })
  else if s.rest.length < k then (none, ⟨[], true, true⟩)
  else (some (s.rest.take k), { s with rest := s.rest.drop k })

/-- `std::getline(is, str, '\0')` (C++ standard; used in libhfst/src/implementations/optimized-lookup/transducer.cc:34). -/
def In.getline (s : In) : Bytes × In :=
  if s.eof = true ∨ s.fail = true then ([], { s with fail := true })
  else
    let str := s.rest.takeWhile (· ≠ 0)
    match s.rest.drop str.length with
    | [] => (str, ⟨[], true, decide (str = [])⟩)
    | _ :: rest => (str, { s with rest := rest })

/-! ## Header -/

/-- `TransducerHeader` (libhfst/src/implementations/optimized-lookup/transducer.h:128-144). -/
structure Header where
  inputSymbols : Nat
  symbols : Nat
  indexSize : Nat
  targetSize : Nat
  states : Nat
  transitions : Nat
  weighted : Bool
  deterministic : Bool
  inputDeterministic : Bool
  minimized : Bool
  cyclic : Bool
  epsilonEpsilon : Bool
  inputEpsilon : Bool
  inputEpsilonCycles : Bool
  unweightedInputEpsilonCycles : Bool
  deriving DecidableEq

/-- `HeaderFlag` (libhfst/src/implementations/optimized-lookup/transducer.h:100-103). -/
inductive HeaderFlag
  | weighted | deterministic | inputDeterministic | minimized | cyclic | epsilonEpsilon | inputEpsilon
  | inputEpsilonCycles | unweightedInputEpsilonCycles
  deriving DecidableEq

/-- `probe_flag` (libhfst/src/implementations/optimized-lookup/transducer.h:258-281). -/
def Header.probe (h : Header) : HeaderFlag → Bool
  | .weighted => h.weighted
  | .deterministic => h.deterministic
  | .inputDeterministic => h.inputDeterministic
  | .minimized => h.minimized
  | .cyclic => h.cyclic
  | .epsilonEpsilon => h.epsilonEpsilon
  | .inputEpsilon => h.inputEpsilon
  | .inputEpsilonCycles => h.inputEpsilonCycles
  | .unweightedInputEpsilonCycles => h.unweightedInputEpsilonCycles

/-- `set_flag` (libhfst/src/implementations/optimized-lookup/transducer.h:283-316).  As in the code, the value is not
used. -/
def Header.setFlag (h : Header) (f : HeaderFlag) (_value : Bool) : Header :=
  match f with
  | .weighted => { h with weighted := true }
  | .deterministic => { h with deterministic := true }
  | .inputDeterministic => { h with inputDeterministic := true }
  | .minimized => { h with minimized := true }
  | .cyclic => { h with cyclic := true }
  | .epsilonEpsilon => { h with epsilonEpsilon := true }
  | .inputEpsilon => { h with inputEpsilon := true }
  | .inputEpsilonCycles => { h with inputEpsilonCycles := true }
  | .unweightedInputEpsilonCycles => { h with unweightedInputEpsilonCycles := true }

/-- `write_bool_property` (libhfst/src/implementations/optimized-lookup/transducer.h:172-176). -/
def boolBytes (b : Bool) : Bytes := leBytes 4 (if b then 1 else 0)

/-- `TransducerHeader::write` (libhfst/src/implementations/optimized-lookup/transducer.h:353-370). -/
def Header.write (h : Header) : Bytes :=
  leBytes 2 h.inputSymbols ++ (leBytes 2 h.symbols ++ (leBytes 4 h.indexSize ++ (leBytes 4 h.targetSize ++
  (leBytes 4 h.states ++ (leBytes 4 h.transitions ++ (boolBytes h.weighted ++ (boolBytes h.deterministic ++
  (boolBytes h.inputDeterministic ++ (boolBytes h.minimized ++ (boolBytes h.cyclic ++ (boolBytes h.epsilonEpsilon ++
  (boolBytes h.inputEpsilon ++ (boolBytes h.inputEpsilonCycles ++ boolBytes h.unweightedInputEpsilonCycles)))))))))))))

/-- `read_property` (libhfst/src/implementations/optimized-lookup/transducer.h:151-157). -/
def readNum (k : Nat) (junk : Nat) (s : In) : Outcome (Nat × In) :=
  match s.read k with
  | (some bs, s') => .ok (leNat bs, s')
  | (none, s') => .ok (junk, s')

/-- `read_bool_property` (libhfst/src/implementations/optimized-lookup/transducer.h:161-171). -/
def readBool (junk : Nat) (s : In) : Outcome (Bool × In) :=
  (readNum 4 junk s).bind fun r =>
    if r.1 = 0 then .ok (false, r.2) else if r.1 = 1 then .ok (true, r.2) else .throws

/-- The constructor from a stream (libhfst/src/implementations/optimized-lookup/transducer.h:222-244). -/
def readHeader (junk : Nat → Nat) (s : In) : Outcome (Header × In) :=
  (readNum 2 (junk 0) s).bind fun a =>
  (readNum 2 (junk 1) a.2).bind fun b =>
  (readNum 4 (junk 2) b.2).bind fun c =>
  (readNum 4 (junk 3) c.2).bind fun d =>
  (readNum 4 (junk 4) d.2).bind fun e =>
  (readNum 4 (junk 5) e.2).bind fun f =>
  (readBool (junk 6) f.2).bind fun g =>
  (readBool (junk 7) g.2).bind fun h =>
  (readBool (junk 8) h.2).bind fun i =>
  (readBool (junk 9) i.2).bind fun j =>
  (readBool (junk 10) j.2).bind fun k =>
  (readBool (junk 11) k.2).bind fun l =>
  (readBool (junk 12) l.2).bind fun m =>
  (readBool (junk 13) m.2).bind fun n =>
  (readBool (junk 14) n.2).bind fun o =>
    if o.2.fail then .throws
    else .ok (⟨a.1, b.1, c.1, d.1, e.1, f.1, g.1, h.1, i.1, j.1, k.1, l.1, m.1, n.1, o.1⟩, o.2)

/-! ## Alphabet -/

/-- `NO_SYMBOL_NUMBER` (libhfst/src/implementations/optimized-lookup/transducer.h:94). -/
def noSymbol : Nat := 65535

/-- `NO_TABLE_INDEX` (libhfst/src/implementations/optimized-lookup/transducer.h:95-96). -/
def noIndex : Nat := 4294967295

/-- `TRANSITION_TARGET_TABLE_START` (libhfst/src/implementations/optimized-lookup/transducer.h:107). -/
def targetStart : Nat := 2147483648

/-- The symbol as a string, each byte a character (used to ask whether it is a flag diacritic,
libhfst/src/implementations/optimized-lookup/transducer.cc:35, 82). -/
def asText (x : Bytes) : List Char := x.map fun b => Char.ofNat b.toNat

/-- `TransducerAlphabet` (libhfst/src/implementations/optimized-lookup/transducer.h:378-383), without the flag table. -/
structure Alphabet where
  table : List Bytes
  unknown : Nat
  default : Nat
  identity : Nat
  deriving DecidableEq

/-- Noting the special symbols (libhfst/src/implementations/optimized-lookup/transducer.cc:35-46, 82-90); `i` is the number of
the symbol. -/
def Alphabet.note (al : Alphabet) (i : Nat) (x : Bytes) : Alphabet :=
  if Flags.isDiacritic (asText x) then al
  else if asText x = Basic.unknown then { al with unknown := i }
  else if asText x = "@_DEFAULT_SYMBOL_@".toList then { al with default := i }
  else if asText x = Basic.identity then { al with identity := i }
  else al

/-- The loop of the constructor from a symbol table (libhfst/src/implementations/optimized-lookup/transducer.cc:80-91). -/
def Alphabet.noteAll : List Bytes → Nat → Alphabet → Alphabet
  | [], _, al => al
  | x :: xs, i, al => Alphabet.noteAll xs (i + 1) (al.note i x)

/-- The constructor from a symbol table (libhfst/src/implementations/optimized-lookup/transducer.cc:74-93). -/
def Alphabet.ofTable (table : List Bytes) : Alphabet := Alphabet.noteAll table 0 ⟨table, noSymbol, noSymbol, noSymbol⟩

/-- `TransducerAlphabet::write` (libhfst/src/implementations/optimized-lookup/transducer.h:408-416). -/
def Alphabet.write (al : Alphabet) : Bytes := al.table.flatMap fun x => x ++ [0]

/-- The loop of the constructor from a stream (libhfst/src/implementations/optimized-lookup/transducer.cc:31-51), with
`preserve_diacritic_strings`; the first argument is the number of symbols still to be read. -/
def readSymbols : Nat → Nat → Alphabet → In → Outcome (Alphabet × In)
  | 0, _, al, s => .ok (al, s)
  | n + 1, i, al, s =>
    let r := s.getline
    let al := al.note i r.1
    if r.2.fail then .throws else readSymbols n (i + 1) { al with table := al.table ++ [r.1] } r.2

/-- The constructor from a stream (libhfst/src/implementations/optimized-lookup/transducer.cc:24-53). -/
def readAlphabet (count : Nat) (s : In) : Outcome (Alphabet × In) :=
  readSymbols count 0 ⟨[], noSymbol, noSymbol, noSymbol⟩ s

/-! ## Tables -/

/-- `TransitionIndex` and `TransitionWIndex` (libhfst/src/implementations/optimized-lookup/transducer.h:464-465). -/
structure Index where
  input : Nat
  target : Nat
  deriving DecidableEq

/-- `Transition` and `TransitionW` (libhfst/src/implementations/optimized-lookup/transducer.h:554-556, 614); without weights
the last field is 0. -/
structure Trans where
  input : Nat
  output : Nat
  target : Nat
  weight : Nat
  deriving DecidableEq

/-- `TransitionIndex::final` (libhfst/src/implementations/optimized-lookup/transducer.cc:221-225). -/
def Index.final (x : Index) : Bool := decide (x.input = noSymbol ∧ x.target ≠ noIndex)

/-- `TransitionIndex::write` (libhfst/src/implementations/optimized-lookup/transducer.h:490-505). -/
def Index.write (weighted : Bool) (x : Index) : Bytes :=
  leBytes 2 x.input ++
    if weighted = false ∧ x.input = noSymbol ∧ x.target ≠ noIndex then leBytes 4 1 else leBytes 4 x.target

/-- `Transition::write` in a table without weights and `TransitionW::write` in a table with weights
(libhfst/src/implementations/optimized-lookup/transducer.h:587-598, 633-640). -/
def Trans.write (weighted : Bool) (x : Trans) : Bytes :=
  leBytes 2 x.input ++ (leBytes 2 x.output ++ (leBytes 4 x.target ++ if weighted then leBytes 4 x.weight else []))

/-- `T(char*)` for index entries (libhfst/src/implementations/optimized-lookup/transducer.h:484-487). -/
def Index.parse (bs : Bytes) : Index := ⟨leNat (bs.take 2), leNat ((bs.drop 2).take 4)⟩

/-- `T(char*)` for transitions (libhfst/src/implementations/optimized-lookup/transducer.h:579-583, 626-631). -/
def Trans.parse (weighted : Bool) (bs : Bytes) : Trans :=
  ⟨leNat (bs.take 2), leNat ((bs.drop 2).take 2), leNat ((bs.drop 4).take 4),
    if weighted then leNat ((bs.drop 8).take 4) else 0⟩

/-- The loop over the buffer (libhfst/src/implementations/optimized-lookup/transducer.h:661-666). -/
def parseAll {α : Type} (size : Nat) (parse : Bytes → α) : Nat → Bytes → List α
  | 0, _ => []
  | n + 1, bs => parse (bs.take size) :: parseAll size parse n (bs.drop size)

/-- `TransducerTable(std::istream&, TransitionTableIndex)` (libhfst/src/implementations/optimized-lookup/transducer.h:656-668);
`junk` is the buffer if reading fails. -/
def readTable {α : Type} (size : Nat) (parse : Bytes → α) (junk : Bytes) (n : Nat) (s : In) : List α × In :=
  match s.read (size * n) with
  | (some bs, s') => (parseAll size parse n bs, s')
  | (none, s') => (parseAll size parse n junk, s')

/-- `TransducerTable::operator[]` (libhfst/src/implementations/optimized-lookup/transducer.h:674-678); outside the vector it is
undefined. -/
def tableGet {α : Type} (table : List α) (i : Nat) : Option α := table[if i < targetStart then i else i - targetStart]?

/-! ## The whole file -/

/-- The parts of `Transducer` that are written (libhfst/src/implementations/optimized-lookup/transducer.cc:859-867). -/
structure Transducer where
  header : Header
  alphabet : Alphabet
  indices : List Index
  transitions : List Trans
  deriving DecidableEq

/-- Writing the entries with some numbers (libhfst/src/implementations/optimized-lookup/transducer.cc:863-866). -/
def writeEntries {α : Type} (write : α → Bytes) (table : List α) : List Nat → Outcome Bytes
  | [] => .ok []
  | i :: is =>
    match tableGet table i with
    | none => .undefined
    | some x => (writeEntries write table is).bind fun bs => .ok (write x ++ bs)

/-- `Transducer::write` (libhfst/src/implementations/optimized-lookup/transducer.cc:859-867). -/
def Transducer.write (t : Transducer) : Outcome Bytes :=
  (writeEntries (Index.write t.header.weighted) t.indices (List.range t.header.indexSize)).bind fun is =>
  (writeEntries (Trans.write t.header.weighted) t.transitions (List.range t.header.targetSize)).bind fun ts =>
    .ok (t.header.write ++ (t.alphabet.write ++ (is ++ ts)))

/-- `T::size` for transitions (libhfst/src/implementations/optimized-lookup/transducer.h:558-559, 616-617). -/
def transSize (weighted : Bool) : Nat := if weighted then 12 else 8

/-- `load_tables` (libhfst/src/implementations/optimized-lookup/transducer.cc:846-857). -/
def loadTables (junk : Bytes) (h : Header) (s : In) : Outcome ((List Index × List Trans) × In) :=
  let is := readTable 6 Index.parse junk h.indexSize s
  let ts := readTable (transSize h.weighted) (Trans.parse h.weighted) junk h.targetSize is.2
  if ts.2.fail then .throws else .ok ((is.1, ts.1), ts.2)

/-- `Transducer(std::istream&)` (libhfst/src/implementations/optimized-lookup/transducer.cc:723-734). -/
def readTransducer (junk : Nat → Nat) (buffer : Bytes) (s : In) : Outcome (Transducer × In) :=
  (readHeader junk s).bind fun h =>
  (readAlphabet h.1.symbols h.2).bind fun al =>
  (loadTables buffer h.1 al.2).bind fun t =>
    .ok (⟨h.1, al.1, t.1.1, t.1.2⟩, t.2)

end Hfst.Ol
