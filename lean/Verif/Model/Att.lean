import Verif.Model.Text

/-!
# AT&T text format

Model of `write_in_att_format`, `add_att_line` and `read_in_att_format`
(libhfst/src/implementations/HfstBasicTransducer.cc:1539-1898).

Simplifications: weights are printed by a parameter `showW` and read by a parameter `readW` (`%f` and `atof` of the C
library); warnings about negative weights and the line counter are left out.
-/
namespace Hfst.Att
open Hfst.StdString Hfst.Basic Hfst.Text

/-- The replacements done on a symbol before it is written
(libhfst/src/implementations/HfstBasicTransducer.cc:1554-1562, 1601-1609). -/
def writeSymbol (x : Sym) : Str :=
  replaceAll (replaceAll (replaceAll x " ".toList "@_SPACE_@".toList) epsilon "@0@".toList)
    "\t".toList "@_TAB_@".toList

/-- The replacements done on a field that has been read, and the comparison with the caller's epsilon symbol
(libhfst/src/implementations/HfstBasicTransducer.cc:1756-1774). -/
def readSymbol (eps : Sym) (f : Str) : Sym :=
  let x := replaceAll (replaceAll (replaceAll (replaceAll f "@_SPACE_@".toList " ".toList) "@0@".toList epsilon)
    "@_TAB_@".toList "\t".toList) "@_COLON_@".toList ":".toList
  if eps = x then epsilon else x

/-- One transition line (libhfst/src/implementations/HfstBasicTransducer.cc:1611-1620). -/
def arcLine (showW : Int → Str) (ww : Bool) (s : Nat) (a : Arc) : Str :=
  natText s ++ '\t' :: natText a.target ++ '\t' :: writeSymbol a.inp ++ '\t' :: writeSymbol a.out ++
    (if ww then '\t' :: showW a.weight else []) ++ ['\n']

/-- One final state line (libhfst/src/implementations/HfstBasicTransducer.cc:1622-1631). -/
def finalLine (showW : Int → Str) (ww : Bool) (s : Nat) (w : Int) : Str :=
  natText s ++ (if ww then '\t' :: showW w else []) ++ ['\n']

/-- The lines for one state: its transitions, then its final weight
(libhfst/src/implementations/HfstBasicTransducer.cc:1595-1633). -/
def stateLines (showW : Int → Str) (ww : Bool) (g : Graph) (s : Nat) (l : List Arc) : List Str :=
  l.map (arcLine showW ww s) ++
    match g.final s with
    | some w => [finalLine showW ww s w]
    | none => []

/-- The lines written by `write_in_att_format(FILE*, bool)`
(libhfst/src/implementations/HfstBasicTransducer.cc:1590-1634). -/
def lines (showW : Int → Str) (ww : Bool) (g : Graph) : List Str :=
  g.states.zipIdx.flatMap fun e => stateLines showW ww g e.2 e.1

/-- `write_in_att_format(FILE*, bool)` (libhfst/src/implementations/HfstBasicTransducer.cc:1590-1634; the ostream
variant at 1542-1586 differs only in how weights are printed). -/
def write (showW : Int → Str) (ww : Bool) (g : Graph) : Str := (lines showW ww g).flatten

/-- The lines for one state as written by the variant with numbers: the final line is printed once after every
transition, and never for a state without transitions
(libhfst/src/implementations/HfstBasicTransducer.cc:1694-1717). -/
def stateLinesNumber (num : Sym → Nat) (showW : Int → Str) (ww : Bool) (g : Graph) (s : Nat) (l : List Arc) :
    List Str :=
  l.flatMap fun a =>
    (natText s ++ '\t' :: natText a.target ++ '\t' :: natText (num a.inp) ++ '\t' :: natText (num a.out) ++
      (if ww then '\t' :: showW a.weight else []) ++ ['\n']) ::
    match g.final s with
    | some w => [finalLine showW ww s w]
    | none => []

/-- `write_in_att_format_number` (libhfst/src/implementations/HfstBasicTransducer.cc:1689-1718); `num` is the global
symbol numbering. -/
def writeNumber (num : Sym → Nat) (showW : Int → Str) (ww : Bool) (g : Graph) : Str :=
  (g.states.zipIdx.flatMap fun e => stateLinesNumber num showW ww g e.2 e.1).flatten

/-- `add_att_line` (libhfst/src/implementations/HfstBasicTransducer.cc:1720-1785).  `ok none` is the result `false`.  A
field of 100 characters or more overflows its buffer. -/
def addLine (readW : Str → Int) (eps : Sym) (g : Graph) (line : Str) : Outcome (Option Graph) :=
  let fs := scanFields 5 line
  if fs.any (fun f => 100 ≤ f.length) then .undefined
  else match fs with
    | [a1] =>
      match atoi a1 with
      | some s => .ok (some (g.setFinal s 0))
      | none => .undefined
    | [a1, a2] =>
      match atoi a1 with
      | some s => .ok (some (g.setFinal s (readW a2)))
      | none => .undefined
    | [a1, a2, a3, a4] =>
      match atoi a1, atoi a2 with
      | some s, some t => .ok (some (g.addTransition s ⟨t, readSymbol eps a3, readSymbol eps a4, 0⟩))
      | _, _ => .undefined
    | [a1, a2, a3, a4, a5] =>
      match atoi a1, atoi a2 with
      | some s, some t => .ok (some (g.addTransition s ⟨t, readSymbol eps a3, readSymbol eps a4, readW a5⟩))
      | _, _ => .undefined
    | _ => .ok none

/-- Whether a line marks an empty transducer (libhfst/src/implementations/HfstBasicTransducer.cc:1843-1846). -/
def isEmptyLine (line : Str) : Bool := line = [] || line = "\n".toList || line = "\r\n".toList

/-- The loop of `read_in_att_format` on a `FILE*` (libhfst/src/implementations/HfstBasicTransducer.cc:1820-1866).  The
first argument bounds the number of lines; `undefined` at its end is never reached. -/
def readLoop (readW : Str → Int) (eps : Sym) : Nat → Graph → File → Outcome (Graph × File)
  | 0, _, _ => .undefined
  | n + 1, g, f =>
    match fgets 255 f with
    | (none, f') => .ok (g, f')
    | (some line, f') =>
      if isEmptyLine line then .ok (g, fgetc f')
      else if line.head? = some '-' then .ok (g, f')
      else match addLine readW eps g line with
        | .ok (some g') => readLoop readW eps n g' f'
        | .ok none => .throws
        | .throws => .throws
        | .undefined => .undefined

/-- `read_in_att_format(FILE*, ...)` (libhfst/src/implementations/HfstBasicTransducer.cc:1796-1867, 1891-1898). -/
def read (readW : Str → Int) (eps : Sym) (f : File) : Outcome (Graph × File) :=
  if f.eof then .throws else readLoop readW eps (f.rest.length + 1) Graph.init f

/-- `read_in_att_format(istream&, ...)` (libhfst/src/implementations/HfstBasicTransducer.cc:1796-1867, 1875-1883).
`getline(line, 255)` meets the end of the stream only if no newline is among the characters it looks at; the loop
goes on only in that case (`!is.getline(line, 255).eof()` at 1825).  After it the next `getline` stores the empty
line, which ends the loop.  What is left to read after a line of 255 characters or more is one character shorter here
than in the code. -/
def readStream (readW : Str → Int) (eps : Sym) (f : File) : Outcome (Graph × File) :=
  if f.eof then .throws
  else
    let r := takeLine 255 f.rest
    if !r.2.2 then .ok (Graph.init, ⟨r.2.1, false⟩)
    else if isEmptyLine r.1 then .ok (Graph.init, ⟨[], true⟩)
    else if r.1.head? = some '-' then .ok (Graph.init, ⟨[], true⟩)
    else match addLine readW eps Graph.init r.1 with
      | .ok (some g') => .ok (g', ⟨[], true⟩)
      | .ok none => .throws
      | .throws => .throws
      | .undefined => .undefined

end Hfst.Att
