import Verif.Model.Graph
import Verif.Model.ToolStreams

/-!
# hfst-expand-equivalences

Model of tools/src/hfst-expand-equivalences.cc.

Simplifications: the functions of the library that the tool calls are parameters (`Library`); transducers in optimized lookup format,
messages, names and formulas are left out; strings have no NUL character; the attributes `value` of the acx file are there.
-/
namespace Hfst.Expand
open Hfst.StdString Hfst.Basic

/-- The functions of `HfstTransducer` that the tool calls: the constructor for a pair of symbols, `disjunct`, `compose`, `minimize`,
`repeat_star` and `invert` (tools/src/hfst-expand-equivalences.cc:232-233, 245-246, 396-411). -/
structure Library (T : Type) where
  pair : Sym → Sym → T
  disjunct : T → T → T
  compose : T → T → T
  minimize : T → T
  star : T → T
  invert : T → T

/-- `add_extension` (tools/src/hfst-expand-equivalences.cc:227-234). -/
def addExtension {T : Type} (L : Library T) (t : T) (x y : Sym) : T := L.disjunct t (L.pair x y)

/-- `strstr(line, "\t")` and `hfst_strndup(line, tab - line)`: the text before the first tab and the text after it
(tools/src/hfst-expand-equivalences.cc:266, 280, 290); `none` if there is no tab. -/
def cutTab : Str → Option (Str × Str)
  | [] => none
  | c :: cs => if c = '\t' then some ([], cs) else (cutTab cs).map fun p => (c :: p.1, p.2)

/-- The loop over the fields after the first one, and the last field (tools/src/hfst-expand-equivalences.cc:289-323).  `cur` is the text
between `endstr` and the character that is looked at; `none`: an empty field ends the program with an error. -/
def fieldLoop {T : Type} (L : Library T) (x : Sym) : Str → Str → T → Option T
  | cur, [], t =>
    let y := cur.takeWhile (· ≠ '\n')
    if y = [] then none else some (addExtension L t x y)
  | cur, c :: cs, t =>
    if c = '\t' then if cur = [] then none else fieldLoop L x [] cs (addExtension L t x cur)
    else fieldLoop L x (cur ++ [c]) cs t

/-- One line of the file of -T (tools/src/hfst-expand-equivalences.cc:260-323); `none`: the program ends with an error. -/
def readLine {T : Type} (L : Library T) (l : Str) (t : T) : Option T :=
  if l.head? = some '\n' then some t
  else
    match cutTab l with
    | none => if l.head? = some '#' then some t else none
    | some (x, rest) => if x = [] then none else fieldLoop L x [] rest t

/-- The loop over the lines that are left in the file of -T (tools/src/hfst-expand-equivalences.cc:253-325). -/
def readLines {T : Type} (L : Library T) : List Str → T → Option T
  | [], t => some t
  | l :: ls, t =>
    match readLine L l t with
    | none => none
    | some t' => readLines L ls t'

/-- The loop over the elements `equiv-char` (tools/src/hfst-expand-equivalences.cc:362-380).  The constructor throws an exception for an
empty symbol (libhfst/src/HfstTransducer.cc:1484-1488), which nobody catches: `none`. -/
def readEquivs {T : Type} (L : Library T) (x : Sym) : List Sym → T → Option T
  | [], t => some t
  | y :: ys, t => if x = [] ∨ y = [] then none else readEquivs L x ys (addExtension L t x y)

/-- The loop over the elements `char` of an acx file (tools/src/hfst-expand-equivalences.cc:354-388). -/
def readChars {T : Type} (L : Library T) : List (Sym × List Sym) → T → Option T
  | [], t => some t
  | c :: cs, t =>
    match readEquivs L c.1 c.2 t with
    | none => none
    | some t' => readChars L cs t'

/-- `fsa_level_t` (tools/src/hfst-expand-equivalences.cc:64-70). -/
inductive Level | first | second | both
  deriving DecidableEq

/-- The argument of -l (tools/src/hfst-expand-equivalences.cc:145-172); `none`: the program ends with an error. -/
def parseLevel (arg : Str) : Option Level :=
  if arg = "first".toList ∨ arg = "upper".toList ∨ arg = "input".toList ∨ arg = "1".toList then some .first
  else if arg = "second".toList ∨ arg = "lower".toList ∨ arg = "output".toList ∨ arg = "2".toList then some .second
  else if arg = "both".toList then some .both
  else none

/-- The options (tools/src/hfst-expand-equivalences.cc:133-172): -f, -t, the lines of the file of -T, the file of -a as libxml reads it
(`none` inside: libxml cannot read it, or its root is another element; lines 332-347) and the level.  Without -l the level is the first
one (line 70). -/
structure Options where
  source : Option Sym := none
  dest : Option Sym := none
  tsv : Option (List Str) := none
  acx : Option (Option (List (Sym × List Sym))) := none
  level : Level := .first

/-- `check_options` (tools/src/hfst-expand-equivalences.cc:181-225): whether the options can be used. -/
def optionsOK (o : Options) : Bool :=
  if o.source.isSome || o.dest.isSome then
    if o.tsv.isSome || o.acx.isSome then false
    else o.source.isSome && o.dest.isSome
  else if o.tsv.isNone && o.acx.isNone then false
  else !(o.tsv.isSome && o.acx.isSome)

/-- The transducer of the extensions before it is repeated, for the lines that are still to be read
(tools/src/hfst-expand-equivalences.cc:245-395).  The constructor throws an exception for an empty symbol
(libhfst/src/HfstTransducer.cc:1484-1488), which nobody catches.  `libxml`: the program has been compiled with libxml (line 329). -/
def extensions {T : Type} (L : Library T) (libxml : Bool) (o : Options) (left : List Str) : T ⊕ Tools.Ending :=
  let start := L.pair identity identity
  match o.source, o.dest with
  | some x, some y => if x = [] ∨ y = [] then .inr .crash else .inl (addExtension L start x y)
  | _, _ =>
    match o.tsv with
    | some _ =>
      match readLines L left start with
      | none => .inr .failure
      | some t => .inl t
    | none =>
      if libxml then
        match o.acx with
        | some (some chars) =>
          match readChars L chars start with
          | none => .inr .crash
          | some t => .inl t
        | _ => .inr .failure
      else .inl start

/-- The compositions (tools/src/hfst-expand-equivalences.cc:396-413); `invert` changes its object, which is not used afterwards. -/
def applyLevel {T : Type} (L : Library T) (level : Level) (ext t : T) : T :=
  match level with
  | .both => L.compose (L.invert ext) (L.compose t ext)
  | .first => L.compose (L.invert ext) t
  | .second => L.compose t ext

/-- The loop over the transducers (tools/src/hfst-expand-equivalences.cc:236-416).  `left` are the lines of the file of -T that have not
been read yet: the file is opened once (line 215) and read to its end for the first transducer. -/
def expandLoop {T : Type} (L : Library T) (libxml : Bool) (o : Options) : List Str → List T → Tools.Run T
  | _, [] => ⟨[], .success⟩
  | left, g :: gs =>
    match extensions L libxml o left with
    | .inr e => ⟨[], e⟩
    | .inl t =>
      Tools.Run.after (applyLevel L o.level (L.minimize (L.star (L.minimize t))) g) (expandLoop L libxml o [] gs)

/-- The tool (tools/src/hfst-expand-equivalences.cc:181-225, 236-469). -/
def expandStream {T : Type} (L : Library T) (libxml : Bool) (o : Options) (gs : List T) : Tools.Run T :=
  if optionsOK o then expandLoop L libxml o (o.tsv.getD []) gs else ⟨[], .failure⟩

end Hfst.Expand
