import Verif.Model.Graph
import Verif.Model.ToolStreams

/-!
# hfst-substitute

Model of tools/src/hfst-substitute.cc with the options -f and -t, and with the options -F and -R.

Simplifications: the substitutions of the library are parameters (`Library`; they are the subject of other properties); -T, -9 and -C,
messages, names and formulas are left out; strings have no NUL character; -f comes before -t.
-/
namespace Hfst.Subst
open Hfst.StdString Hfst.Basic

/-- What `label_to_stringpair` makes of a label (tools/src/hfst-substitute.cc:88-149): its loop never ends, the label is not a pair, or
it is one. -/
inductive Parsed
  | never
  | single
  | pair (a b : Str)
  deriving DecidableEq

/-- The loop that looks for the colon (tools/src/hfst-substitute.cc:91-124).  `before` are the characters in front of the one that is
looked at, the nearest first.  If the colon is the second character and comes after a backslash, nothing changes and the loop goes on
for ever (lines 103-116). -/
def scan : Str → Str → Parsed
  | _, [] => .single
  | before, c :: cs =>
    if c ≠ ':' then scan (c :: before) cs
    else
      match before with
      | [] => scan [c] cs
      | d :: before' =>
        if cs = [] then .single
        else if d = '\\' then
          match before' with
          | [] => .never
          | e :: _ => if e = '\\' then .pair before.reverse cs else scan (c :: before) cs
        else .pair before.reverse cs

/-- "@0@" stands for the epsilon symbol (tools/src/hfst-substitute.cc:134-143, 241-245, 268-272). -/
def zero (a : Str) : Sym := if a = "@0@".toList then epsilon else a

/-- `label_to_stringpair` (tools/src/hfst-substitute.cc:88-149). -/
def labelPair (label : Str) : Parsed :=
  match scan [] label with
  | .pair a b => .pair (zero a) (zero b)
  | r => r

/-- A substitution that is asked for: of a symbol, or of a pair of symbols (tools/src/hfst-substitute.cc:715-743). -/
inductive Request
  | label (x y : Sym)
  | pair (p q : Sym × Sym)
  deriving DecidableEq

/-- What a line of the file of -F can lead to (tools/src/hfst-substitute.cc:668-743). -/
inductive LineResult
  | skip
  | error
  | never
  | ask (r : Request)

/-- `strstr(line, "\t")` and `hfst_strndup(line, tab - line)`: the text before the first tab and the text after it
(tools/src/hfst-substitute.cc:673, 687, 692); `none` if there is no tab. -/
def cutLine : Str → Option (Str × Str)
  | [] => none
  | c :: cs => if c = '\t' then some ([], cs) else (cutLine cs).map fun p => (c :: p.1, p.2)

/-- One line of the file of -F (tools/src/hfst-substitute.cc:668-743). -/
def readLine (l : Str) : LineResult :=
  if l.head? = some '\n' then .skip
  else
    match cutLine l with
    | none => if l.head? = some '#' then .skip else .error
    | some (x, rest) =>
      let y := rest.takeWhile (· ≠ '\n')
      match labelPair x with
      | .never => .never
      | px =>
        match labelPair y with
        | .never => .never
        | py =>
          if x = [] ∨ y = [] then .error
          else
            match px, py with
            | .pair a b, .pair c d => .ask (.pair (a, b) (c, d))
            | _, _ => .ask (.label x y)

/-- The loop over the lines that are left in the file of -F (tools/src/hfst-substitute.cc:666-770).  What is done to the transducer before
an error is not seen, since nothing is written then; so the substitutions are collected first. -/
def readLines : List Str → List Request ⊕ Tools.Ending
  | [] => .inl []
  | l :: ls =>
    match readLine l with
    | .skip => readLines ls
    | .error => .inr .failure
    | .never => .inr .never
    | .ask r =>
      match readLines ls with
      | .inl rs => .inl (r :: rs)
      | .inr e => .inr e

/-- The functions `substitute` of `HfstTransducer` that the tool calls (tools/src/hfst-substitute.cc:424, 461, 776, 783). -/
structure Library (T : Type) where
  label : Sym → Sym → T → T
  pair : Sym × Sym → Sym × Sym → T → T
  labels : List (Sym × Sym) → T → T
  pairs : List ((Sym × Sym) × (Sym × Sym)) → T → T

/-- `do_substitute` for a line with -R (tools/src/hfst-substitute.cc:408-465, 723-726, 738-741). -/
def perform {T : Type} (L : Library T) (t : T) : Request → T
  | .label x y => L.label x y t
  | .pair p q => L.pair p q t

/-- `label_substitution_map` after the lines (tools/src/hfst-substitute.cc:732-735). -/
def labelMap (rs : List Request) : List (Sym × Sym) :=
  rs.foldl (fun m r => match r with | .label x y => mapPut m x y | .pair _ _ => m) []

/-- `pair_substitution_map` after the lines (tools/src/hfst-substitute.cc:719-721). -/
def pairMap (rs : List Request) : List ((Sym × Sym) × (Sym × Sym)) :=
  rs.foldl (fun m r => match r with | .label _ _ => m | .pair p q => mapPut m p q) []

/-- `symbol_map_in_use` after the lines (tools/src/hfst-substitute.cc:735). -/
def usesLabels (rs : List Request) : Bool := rs.any fun r => match r with | .label _ _ => true | .pair _ _ => false

/-- `symbol_pair_map_in_use` after the lines (tools/src/hfst-substitute.cc:721). -/
def usesPairs (rs : List Request) : Bool := rs.any fun r => match r with | .label _ _ => false | .pair _ _ => true

/-- All substitutions of the file at once, without -R (tools/src/hfst-substitute.cc:773-785). -/
def together {T : Type} (L : Library T) (rs : List Request) (t : T) : T :=
  let t1 := if usesLabels rs then L.labels (labelMap rs) t else t
  if usesPairs rs then L.pairs (pairMap rs) t1 else t1

/-- The loop over the transducers with -F (tools/src/hfst-substitute.cc:621-910).  `left` are the lines that have not been read yet: the
file is opened once (line 260) and read to its end for the first transducer; the flags that tell that the maps are in use are cleared
(lines 777, 784). -/
def fileLoop {T : Type} (L : Library T) (inOrder : Bool) : List Str → List T → Tools.Run T
  | _, [] => ⟨[], .success⟩
  | left, g :: gs =>
    match readLines left with
    | .inr e => ⟨[], e⟩
    | .inl rs => Tools.Run.after (if inOrder then rs.foldl (perform L) g else together L rs g) (fileLoop L inOrder [] gs)

/-- The tool with -F (tools/src/hfst-substitute.cc:534-912). -/
def substituteFile {T : Type} (L : Library T) (inOrder : Bool) (lines : List Str) (gs : List T) : Tools.Run T :=
  fileLoop L inOrder lines gs

/-- The tool with -f and -t (tools/src/hfst-substitute.cc:239-257, 266-284, 408-463, 788-793). -/
def substituteOption {T : Type} (L : Library T) (x y : Str) (gs : List T) : Tools.Run T :=
  match labelPair (zero x) with
  | .never => ⟨[], .never⟩
  | px =>
    if x = [] then ⟨[], .failure⟩
    else
      match labelPair (zero y) with
      | .never => ⟨[], .never⟩
      | py =>
        if y = [] then ⟨[], .failure⟩
        else
          match px, py with
          | .pair a b, .pair c d => ⟨gs.map (L.pair (a, b) (c, d)), .success⟩
          | _, _ => ⟨gs.map (L.label (zero x) (zero y)), .success⟩

end Hfst.Subst
