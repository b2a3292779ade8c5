import Verif.Model.Graph

/-!
# Headers of transducer streams

Model of the header code in libhfst/src/HfstOutputStream.cc and HfstInputStream.cc.  All back ends are taken to be compiled
in, except xfsm and my_transducer_library.  Exceptions are not told apart.  The bytes of the transducers themselves belong to
the back ends and are not modelled.
-/
namespace Hfst.Stream
open Hfst.Basic

abbrev Byte := UInt8
abbrev Bytes := List Byte

/-- The bytes of an ASCII literal in the source (C++ standard; used in libhfst/src/HfstOutputStream.cc:262-305). -/
def ascii (s : String) : Bytes := s.toList.map fun c => UInt8.ofNat c.toNat

/-- `ImplementationType` (libhfst/src/HfstDataTypes.h), the types that can have a header. -/
inductive FstType where
  | sfst
  | tropical
  | log
  | foma
  | ol
  | olw
  deriving DecidableEq

/-! ## Writing -/

/-- The names of the types (libhfst/src/HfstOutputStream.cc:266-308). -/
def typeName : FstType → Bytes
  | .sfst => ascii "SFST"
  | .tropical => ascii "TROPICAL_OPENFST"
  | .log => ascii "LOG_OPENFST"
  | .foma => ascii "FOMA"
  | .ol => ascii "HFST_OL"
  | .olw => ascii "HFST_OLW"

/-- `append` (libhfst/src/HfstOutputStream.cc:196-201). -/
def append (header s : Bytes) : Bytes := header ++ (s ++ [0])

/-- The header data (libhfst/src/HfstOutputStream.cc:260-311, 407-424).  `props` are the properties in the order of the map;
`extra` are the pairs of `append_implementation_specific_header_data` (one pair `minimal` for SFST,
libhfst/src/implementations/SfstTransducer.cc:202-219, otherwise none). -/
def headerData (type : FstType) (props extra : List (Bytes × Bytes)) : Bytes :=
  let h := append (append (append (append [] (ascii "version")) (ascii "3.3")) (ascii "type")) (typeName type)
  let h := props.foldl (fun h p =>
    if p.1 = ascii "type" ∨ p.1 = ascii "version" then h else append (append h p.1) p.2) h
  extra.foldl (fun h p => append (append h p.1) p.2) h

/-- `operator<<` up to the end of the header (libhfst/src/HfstOutputStream.cc:403-446) for an open stream of the right type:
the bytes written and whether an exception is thrown then.  The length is stored with the lower byte first, as on a
little-endian machine. -/
def writeHeader (type : FstType) (props extra : List (Bytes × Bytes)) : Bytes × Bool :=
  let h := headerData type props extra
  let start := ascii "HFST" ++ [0]
  if 65535 < h.length then (start, true)
  else (start ++ [UInt8.ofNat (h.length % 256), UInt8.ofNat (h.length / 256), 0] ++ h, false)

/-! ## Reading -/

/-- A `std::istream`: the bytes to come and the bits `eofbit` and `failbit` (C++ standard, [istream.unformatted]). -/
structure In where
  rest : Bytes
  eof : Bool := false
  fail : Bool := false
  deriving DecidableEq

/-- `stream_get()` (libhfst/src/HfstInputStream.cc:174-177): at the end the value -1 is converted to `char`. -/
def get (s : In) : Byte × In :=
  if s.fail then (255, s)
  else match s.rest with
    | [] => (255, { s with eof := true, fail := true })
    | b :: r => (b, { s with rest := r })

/-- `stream_unget(c)` (libhfst/src/HfstInputStream.cc:217-222): `putback` clears `eofbit` and does nothing else on a failed
stream.  Otherwise putting back is taken to succeed (the buffer holds what was read last). -/
def unget (c : Byte) (s : In) : In :=
  if s.fail then { s with eof := false } else { s with rest := c :: s.rest, eof := false }

/-- `stream_peek` (libhfst/src/HfstInputStream.cc:260-265). -/
def peek (s : In) : Byte × In :=
  let r := get s
  (r.1, unget r.1 r.2)

/-- The loop of `stream_getstring` (libhfst/src/HfstInputStream.cc:270-278) on a stream that has not failed: the end of the
stream throws. -/
def getStringGo : Bytes → Outcome (Bytes × Bytes)
  | [] => .throws
  | b :: r =>
    if b = 0 then .ok ([], r)
    else match getStringGo r with
      | .ok (s, r') => .ok (b :: s, r')
      | .throws => .throws
      | .undefined => .undefined

/-- `stream_getstring` (libhfst/src/HfstInputStream.cc:267-280).  On a failed stream whose `eofbit` was cleared the loop does
not end; this is `undefined` here. -/
def getString (s : In) : Outcome (Bytes × In) :=
  if s.fail then (if s.eof then .throws else .undefined)
  else match getStringGo s.rest with
    | .ok (x, r) => .ok (x, { s with rest := r })
    | .throws => .throws
    | .undefined => .undefined

/-- `read_library_header` and `read_library_header_old` (libhfst/src/HfstInputStream.cc:788-829): `id` is the expected text
with its NUL, `seen` what has matched, last first. -/
def matchId : Bytes → Bytes → In → Bool × In
  | [], _, s => (true, s)
  | i :: id, seen, s =>
    let r := get s
    if r.1 = i then matchId id (i :: seen) r.2
    else (false, seen.foldl (fun s c => unget c s) (unget r.1 r.2))

/-- `get_header_size` (libhfst/src/HfstInputStream.cc:831-844, 166-172). -/
def getHeaderSize (s : In) : Outcome (Nat × In) :=
  let a := get s
  let b := get a.2
  let c := get b.2
  if c.1 ≠ 0 then .throws else .ok (b.1.toNat * 256 + a.1.toNat, c.2)

/-- The loop of `get_header_data` (libhfst/src/HfstInputStream.cc:851-876).  The first argument bounds the number of rounds;
each one counts at least two bytes. -/
def getPairs (size : Nat) : Nat → Nat → In → Outcome (List (Bytes × Bytes) × In)
  | 0, _, _ => .undefined
  | n + 1, count, s =>
    match getString s with
    | .throws => .throws
    | .undefined => .undefined
    | .ok (a, s1) =>
      match getString s1 with
      | .throws => .throws
      | .undefined => .undefined
      | .ok (b, s2) =>
        let count := count + a.length + b.length + 2
        if size < count then .throws
        else if s2.eof then .throws
        else if count = size then .ok ([(a, b)], s2)
        else match getPairs size n count s2 with
          | .ok (l, s3) => .ok ((a, b) :: l, s3)
          | .throws => .throws
          | .undefined => .undefined

/-- `get_header_data` (libhfst/src/HfstInputStream.cc:846-878). -/
def getHeaderData (size : Nat) (s : In) : Outcome (List (Bytes × Bytes) × In) := getPairs size (size + 1) 0 s

/-- The members of an `HfstInputStream` that the header sets (libhfst/src/HfstInputStream.h:132-133). -/
structure St where
  type : Option FstType
  name : Bytes
  props : List (Bytes × Bytes)
  deriving DecidableEq

/-- The names of types that are recognised (libhfst/src/HfstInputStream.cc:683-705). -/
def typeOfName (v : Bytes) : Option FstType :=
  if v = ascii "SFST" then some .sfst
  else if v = ascii "FOMA" then some .foma
  else if v = ascii "TROPICAL_OPENFST" ∨ v = ascii "TROPICAL_OFST" then some .tropical
  else if v = ascii "LOG_OPENFST" ∨ v = ascii "LOG_OFST" then some .log
  else if v = ascii "HFST_OL" then some .ol
  else if v = ascii "HFST_OLW" then some .olw
  else none

/-- `process_header_data` (libhfst/src/HfstInputStream.cc:661-720). -/
def processHeader (st : St) : List (Bytes × Bytes) → Outcome St
  | (k0, v0) :: (k1, v1) :: more =>
    if ¬ (k0 = ascii "version" ∧ (v0 = ascii "3.0" ∨ v0 = ascii "3.3")) then .throws
    else if k1 ≠ ascii "type" then .throws
    else match typeOfName v1 with
      | none => .throws
      | some t =>
        match more with
        | [] => .ok { st with type := some t }
        | (k2, v2) :: _ =>
          .ok { type := some t
                name := if k2 = ascii "name" then v2 else st.name
                props := ((k0, v0) :: (k1, v1) :: more).foldl (fun m p => mapPut m p.1 p.2) st.props }
  | _ => .throws

/-- `get_fst_type_old` (libhfst/src/HfstInputStream.cc:765-786): the type and the reported number of bytes. -/
def typeOld (v : Bytes) : Option (FstType × Nat) :=
  if v = ascii "SFST_TYPE" then some (.sfst, 10)
  else if v = ascii "FOMA_TYPE" then some (.foma, 10)
  else if v = ascii "TROPICAL_OPENFST_TYPE" then some (.tropical, 19)
  else if v = ascii "LOG_OPENFST_TYPE" then some (.log, 14)
  else if v = ascii "HFST_OL_TYPE" then some (.ol, 13)
  else if v = ascii "HFST_OLW_TYPE" then some (.olw, 14)
  else none

/-- `read_hfst_header` (libhfst/src/HfstInputStream.cc:728-763): `some n` is true with `n` bytes reported, `none` is false. -/
def readHeader (st : St) (s : In) : Outcome (Option Nat × In × St) :=
  let p := peek s
  if p.1 ≠ 72 then .ok (none, p.2, st)
  else
    let m := matchId (ascii "HFST" ++ [0]) [] p.2
    if m.1 then
      match getHeaderSize m.2 with
      | .throws => .throws
      | .undefined => .undefined
      | .ok (size, s1) =>
        match getHeaderData size s1 with
        | .throws => .throws
        | .undefined => .undefined
        | .ok (pairs, s2) =>
          match processHeader st pairs with
          | .ok st' => .ok (some (5 + 3 + size), s2, st')
          | .throws => .throws
          | .undefined => .undefined
    else
      let m := matchId (ascii "HFST3" ++ [0]) [] m.2
      if m.1 then
        match getString m.2 with
        | .throws => .throws
        | .undefined => .undefined
        | .ok (v, s1) =>
          match typeOld v with
          | none => .throws
          | some (t, n) => .ok (some (6 + n), s1, { st with type := some t })
      else .ok (none, m.2, st)

/-- What `read_transducer` puts into the properties of a new transducer (libhfst/src/HfstInputStream.cc:544-550,
HfstTransducer.cc:1543-1564); values that are not UTF-8 would throw and are taken not to occur. -/
def transducerProps (st : St) : List (Bytes × Bytes) :=
  st.props.foldl (fun m p => mapPut m p.1 p.2) (mapPut [] (ascii "name") st.name)

/-- `get_property` (libhfst/src/HfstTransducer.cc:1566-1577). -/
def getProperty (props : List (Bytes × Bytes)) (k : Bytes) : Bytes := (mapGet props k).getD []

end Hfst.Stream
