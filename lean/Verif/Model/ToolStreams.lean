/-!
# Command line tools that read archives of transducers

Model of the parts of the tools that choose and pair the transducers of an archive:
tools/src/hfst-head.cc, tools/src/hfst-tail.cc, tools/src/hfst-split.cc, the loop shared by
tools/src/hfst-{disjunct,concatenate,conjunct,subtract,shuffle,priority-disjunct}.cc, the loop of
tools/src/hfst-compose.cc and that of tools/src/hfst-compare.cc.

Simplifications common to this file:
* An input stream is the list of the transducers still to be read; `is_good()` tells that the list is not empty.
  (That reading a stream gives the transducers that were written to it is properties C44-C46.)
* `size_t` counters are natural numbers: an archive with 2^64 transducers is out of reach.
* Messages, names and formulas of the transducers are left out.
-/
namespace Hfst.Tools

/-- The largest `long` (64 bits). Used by `strtol` in tools/src/hfst-commandline.cc:434. -/
def longMax : Int := 9223372036854775807

/-- The smallest `long` (64 bits). Used by `strtol` in tools/src/hfst-commandline.cc:434. -/
def longMin : Int := -9223372036854775808

/-- `isspace` in the C locale, called by `strtol` (tools/src/hfst-commandline.cc:434). -/
def isSpace (c : Char) : Bool :=
  c == ' ' || c == '\t' || c == '\n' || c == '\x0b' || c == '\x0c' || c == '\r'

/-- The value of the digits read so far and the characters left, as `strtol` with base 10 reads them
(called in tools/src/hfst-commandline.cc:434). -/
def readDigits (acc : Nat) : List Char → Nat × List Char
  | [] => (acc, [])
  | c :: cs => if c.isDigit then readDigits (acc * 10 + (c.toNat - 48)) cs else (acc, c :: cs)

/-- What `strtol` gives back for a value outside the range of `long`: the nearest `long` (C standard 7.22.1.4;
called in tools/src/hfst-commandline.cc:434). -/
def clamp (v : Int) : Int := if v > longMax then longMax else if v < longMin then longMin else v

/-- The sign in front of the digits: whether the number is negative, and the characters after the sign
(`strtol`, called in tools/src/hfst-commandline.cc:434). -/
def readSign : List Char → Bool × List Char
  | '-' :: cs => (true, cs)
  | '+' :: cs => (false, cs)
  | cs => (false, cs)

/-- `strtol(s, &endptr, 10)` (C standard 7.22.1.4; called in tools/src/hfst-commandline.cc:434): the value and the
characters from `endptr` on.  If there is no digit, the value is 0 and `endptr` is `s`. -/
def strtol (s : List Char) : Int × List Char :=
  let signed := readSign (s.dropWhile isSpace)
  match signed.2 with
  | [] => (0, s)
  | c :: cs =>
    if c.isDigit then
      let r := readDigits 0 (c :: cs)
      (clamp (if signed.1 then -(r.1 : Int) else (r.1 : Int)), r.2)
    else (0, s)

/-- `hfst_strtol(s, 10)` (tools/src/hfst-commandline.cc:429-445); `none`: the program ends with an error. -/
def hfstStrtol (s : List Char) : Option Int :=
  let r := strtol s
  if r.2.isEmpty then some r.1 else none

/-- How a run of a tool can end: with exit code 0, with another exit code, by an exception nobody catches, by
undefined behaviour, or never (exit codes: tools/src/hfst-disjunct.cc:232, 241, 249). -/
inductive Ending | success | failure | crash | undefined | never
  deriving DecidableEq, Repr

/-- What a tool has written and how it ended (`outstream << ...` in tools/src/hfst-disjunct.cc:209). -/
structure Run (γ : Type) where
  written : List γ
  ending : Ending
  deriving DecidableEq, Repr

/-- A transducer is written, then the rest of the run follows (tools/src/hfst-disjunct.cc:209). -/
def Run.after {γ : Type} (c : γ) (r : Run γ) : Run γ := ⟨c :: r.written, r.ending⟩

/-! ## hfst-head -/

/-- The option `-n` of hfst-head (tools/src/hfst-head.cc:53, 111-113): 1 without the option. -/
def headCount : Option (List Char) → Option Int
  | none => some 1
  | some s => hfstStrtol s

/-- `while (instream.is_good() && (transducer_n < head_count))` (tools/src/hfst-head.cc:133-145). -/
def headLoop {α : Type} (count : Int) (n : Nat) : List α → List α
  | [] => []
  | x :: xs => if (n : Int) < count then x :: headLoop count (n + 1) xs else []

/-- `for (unsigned int i = 0; i < -head_count; i++)` with its body (tools/src/hfst-head.cc:166-172).  `i` has 32
bits and is compared with a `long`.  `none`: the loop has not ended after `fuel` rounds. -/
def popLoop {α : Type} (m : Int) : Nat → UInt32 → List α → Option (List α)
  | 0, _, _ => none
  | fuel + 1, i, q => if (i.toNat : Int) < m then popLoop m fuel (i + 1) q.dropLast else some q

/-- `process_stream` of hfst-head (tools/src/hfst-head.cc:127-191).  `fuel` bounds the rounds of the loop in lines
166-172; if it is not enough, the result says that the tool is still running. -/
def head {α : Type} (fuel : Nat) (count : Int) (xs : List α) : Run α :=
  if count > 0 then ⟨headLoop count 0 xs, .success⟩
  else if count < 0 then
    if count = longMin then ⟨[], .undefined⟩
    else match popLoop (-count) fuel 0 xs with
      | none => ⟨[], .never⟩
      | some q => ⟨q, .success⟩
  else ⟨[], .success⟩

/-- hfst-head with its option (tools/src/hfst-head.cc:84-125, 193-242). -/
def headMain {α : Type} (fuel : Nat) (opt : Option (List Char)) (xs : List α) : Run α :=
  match headCount opt with
  | none => ⟨[], .failure⟩
  | some k => head fuel k xs

/-! ## hfst-tail -/

/-- The option `-n` of hfst-tail (tools/src/hfst-tail.cc:56, 113-123): -1 without the option.  Changing the sign
of the smallest `long` cannot happen: the text begins with `+`. -/
def tailCount : Option (List Char) → Option Int
  | none => some (-1)
  | some s => if s.head? = some '+' then (hfstStrtol s).map (fun k => -k) else hfstStrtol s

/-- `while (instream.is_good())` with the queue of the last transducers (tools/src/hfst-tail.cc:141-150). -/
def lastLoop {α : Type} (count : Int) (q : List α) : List α → List α
  | [] => q
  | x :: xs =>
    let q' := q ++ [x]
    lastLoop count (if (q'.length : Int) > count then q'.drop 1 else q') xs

/-- `while (instream.is_good())` with `transducer_n >= -tail_count` (tools/src/hfst-tail.cc:170-179). -/
def skipLoop {α : Type} (m : Int) (n : Nat) : List α → List α
  | [] => []
  | x :: xs => if ((n + 1 : Nat) : Int) ≥ m then x :: skipLoop m (n + 1) xs else skipLoop m (n + 1) xs

/-- `process_stream` of hfst-tail (tools/src/hfst-tail.cc:133-185).  The sign of `tail_count` is changed in lines
169 and 174, which is undefined for the smallest `long`. -/
def tail {α : Type} (count : Int) (xs : List α) : Run α :=
  if count > 0 then ⟨lastLoop count [] xs, .success⟩
  else if count < 0 then
    if count = longMin then ⟨[], .undefined⟩
    else ⟨skipLoop (-count) 0 xs, .success⟩
  else ⟨[], .success⟩

/-- hfst-tail with its option (tools/src/hfst-tail.cc:84-131, 188-229). -/
def tailMain {α : Type} (opt : Option (List Char)) (xs : List α) : Run α :=
  match tailCount opt with
  | none => ⟨[], .failure⟩
  | some k => tail k xs

/-! ## hfst-split -/

/-- `sprintf(outfilename, "%s" SIZE_T_SPECIFIER "%s", prefix, transducer_n, extension)`
(tools/src/hfst-split.cc:156-157). -/
def splitName (pre ext : List Char) (n : Nat) : List Char := pre ++ Nat.toDigits 10 n ++ ext

/-- The loop of hfst-split (tools/src/hfst-split.cc:149-167).  The file system maps names to the transducers stored
there; opening a file for writing empties it, and then one transducer is written. -/
def splitLoop {α : Type} (pre ext : List Char) (n : Nat) (fs : List Char → Option (List α)) :
    List α → (List Char → Option (List α))
  | [] => fs
  | x :: xs =>
    splitLoop pre ext (n + 1) (fun f => if f = splitName pre ext (n + 1) then some [x] else fs f) xs

/-- `process_stream` of hfst-split (tools/src/hfst-split.cc:144-170). -/
def split {α : Type} (pre ext : List Char) (fs : List Char → Option (List α)) (xs : List α) :
    List Char → Option (List α) := splitLoop pre ext 0 fs xs

/-! ## The tools with two inputs -/

/-- The checks after the loop (tools/src/hfst-disjunct.cc:230-249, and the same in the other tools). -/
def atEnd {α β : Type} (as : List α) (bs : List β) : Ending :=
  if !as.isEmpty then .failure else if !bs.isEmpty then .failure else .success

/-- The loop of hfst-disjunct (tools/src/hfst-disjunct.cc:165-228) and of the other tools
(hfst-concatenate.cc:191-277, hfst-conjunct.cc:184-271, hfst-subtract.cc:186-280, hfst-shuffle.cc:170-251,
hfst-priority-disjunct.cc:183-254).  `step a b` is the body between reading and writing: the transducer written and
what `*second` is afterwards; `none`: the body ends the program with an error.  `kept` is the pointer `second`
(`none`: 0), `n2` is `transducer_n_second`. -/
def pairLoop {α β γ : Type} (step : α → β → Option (γ × β)) :
    List α → List β → Option β → Nat → Run γ
  | [], _, _, _ => ⟨[], .crash⟩
  | a :: as, bs, kept, n2 =>
    let second := if bs.isEmpty then kept else bs.head?
    let n2' := if bs.isEmpty then n2 else n2 + 1
    let bs' := bs.drop 1
    match second with
    | none => ⟨[], .crash⟩
    | some b =>
      match step a b with
      | none => ⟨[], .failure⟩
      | some (c, b') =>
        let continueReading := !as.isEmpty && (!bs'.isEmpty || n2' == 1)
        let kept' := if (continueReading && !bs'.isEmpty) || !continueReading then none else some b'
        if continueReading then (pairLoop step as bs' kept' n2').after c
        else ⟨[c], atEnd as bs'⟩

/-- `disjunct_streams` (tools/src/hfst-disjunct.cc:121-250) and the same function of the other tools.  The choice of
the output format (lines 127-156) is left out. -/
def binaryTool {α β γ : Type} (step : α → β → Option (γ × β)) (as : List α) (bs : List β) : Run γ :=
  if !as.isEmpty && !bs.isEmpty then pairLoop step as bs none 0 else ⟨[], atEnd as bs⟩

/-- The loop of hfst-compose (tools/src/hfst-compose.cc:240-377).  `first` is kept, too, and it has been changed in
place by the body.  `fuel` bounds the rounds. -/
def composeLoop {τ : Type} (step : τ → τ → Option (τ × τ)) :
    Nat → List τ → List τ → Option τ → Option τ → Nat → Nat → Run τ
  | 0, _, _, _, _, _, _ => ⟨[], .never⟩
  | fuel + 1, as, bs, kept1, kept2, n1, n2 =>
    let first := if as.isEmpty then kept1 else as.head?
    let n1' := if as.isEmpty then n1 else n1 + 1
    let as' := as.drop 1
    let second := if bs.isEmpty then kept2 else bs.head?
    let n2' := if bs.isEmpty then n2 else n2 + 1
    let bs' := bs.drop 1
    match first, second with
    | none, _ => ⟨[], .undefined⟩
    | some _, none => ⟨[], .crash⟩
    | some a, some b =>
      match step a b with
      | none => ⟨[], .failure⟩
      | some (c, b') =>
        let continueReading := (!as'.isEmpty && !bs'.isEmpty) || (!as'.isEmpty && n2' == 1)
          || (n1' == 1 && !bs'.isEmpty)
        if continueReading then
          (composeLoop step fuel as' bs' (if as'.isEmpty then some c else none)
            (if bs'.isEmpty then some b' else none) n1' n2').after c
        else ⟨[c], atEnd as' bs'⟩

/-- `compose_streams` (tools/src/hfst-compose.cc:177-405).  Every round but the last reads a transducer, so the
number of transducers bounds the rounds. -/
def composeTool {τ : Type} (step : τ → τ → Option (τ × τ)) (as bs : List τ) : Run τ :=
  if !as.isEmpty && !bs.isEmpty then composeLoop step (as.length + bs.length) as bs none none 0 0
  else ⟨[], atEnd as bs⟩

/-- `compare_streams` (tools/src/hfst-compare.cc:133-266): the loop is the same, a line tells for each pair whether
it is equal, and the exit code depends on the number of mismatches. -/
def compareTool {α β : Type} (step : α → β → Option (Bool × β)) (as : List α) (bs : List β) : Run Bool :=
  let r := binaryTool step as bs
  match r.ending with
  | .success => if r.written.all (fun c => c) then r else ⟨r.written, .failure⟩
  | _ => r

end Hfst.Tools
