import Verif.Model.Graph
import Verif.Model.ToolStreams

/-!
# hfst-reweight

Model of tools/src/hfst-reweight.cc:57-74, 306-503.

Simplifications: weights are integers and the arithmetic is exact; the function chosen with -F is a parameter; converting to
`HfstBasicTransducer` and back is left out (properties C81, C82 and C87); messages, names and formulas are left out.
-/
namespace Hfst.Reweight
open Hfst.StdString Hfst.Basic

/-- The largest `float`, `FLT_MAX` (tools/src/hfst-reweight.cc:66). -/
def fltMax : Int := (2 ^ 24 - 1) * 2 ^ 104

/-- The options (global variables in tools/src/hfst-reweight.cc:57-72). -/
structure Options where
  addition : Int := 0
  multiplier : Int := 1
  func : Int → Int := id
  lower : Int := 0
  upper : Int := fltMax
  input : Option Sym := none
  output : Option Sym := none
  symbol : Option Sym := none
  endsOnly : Bool := false
  arcsOnly : Bool := false

/-- `(s != 0) && (strcmp(x, s) != 0)` (tools/src/hfst-reweight.cc:327-345). -/
def differs (s : Option Sym) (x : Sym) : Bool :=
  match s with
  | none => false
  | some s => x != s

/-- `reweight` (tools/src/hfst-reweight.cc:306-352).  `none`: the two null pointers given for final weights. -/
def reweight (o : Options) (w : Int) (io : Option (Sym × Sym)) : Int :=
  if w < o.lower || w > o.upper then w
  else match io with
    | none => if o.arcsOnly then w else o.multiplier * o.func w + o.addition
    | some (i, u) =>
      if o.endsOnly then w
      else if differs o.symbol i && differs o.symbol u then w
      else if differs o.input i && differs o.output u then w
      else if differs o.input i then w
      else if differs o.output u then w
      else o.multiplier * o.func w + o.addition

/-- The variables `replication`, `rebuilt` and `state_count` of `do_reweight` (tools/src/hfst-reweight.cc:358-361). -/
structure Copying where
  rep : Graph
  rebuilt : List (Nat × Nat)
  count : Nat

/-- The final weight of state `s` is given to state `t` of the copy (tools/src/hfst-reweight.cc:362-366, 374-379, 390-396). -/
def copyFinal (o : Options) (g : Graph) (s t : Nat) (rep : Graph) : Graph :=
  match g.final s with
  | none => rep
  | some w => rep.setFinal t (reweight o w none)

/-- A state that has no number yet gets one (tools/src/hfst-reweight.cc:371-382 and 387-399). -/
def visit (o : Options) (g : Graph) (c : Copying) (s : Nat) : Copying :=
  match mapGet c.rebuilt s with
  | some _ => c
  | none => ⟨copyFinal o g s c.count (c.rep.addStateN c.count), mapPut c.rebuilt s c.count, c.count + 1⟩

/-- `rebuilt[s]` (tools/src/hfst-reweight.cc:401, 405); `operator[]` gives 0 for a key that is not in the map. -/
def number (c : Copying) (s : Nat) : Nat := (mapGet c.rebuilt s).getD 0

/-- The loop over the transitions of a state (tools/src/hfst-reweight.cc:383-406). -/
def copyArc (o : Options) (g : Graph) (s : Nat) (c : Copying) (a : Arc) : Copying :=
  let c1 := visit o g c a.target
  let nu : Arc := ⟨number c1 a.target, a.inp, a.out, reweight o a.weight (some (a.inp, a.out))⟩
  { c1 with rep := c1.rep.addTransition (number c1 s) nu }

/-- The loop over the states (tools/src/hfst-reweight.cc:367-408). -/
def copyStates (o : Options) (g : Graph) : Nat → List (List Arc) → Copying → Copying
  | _, [], c => c
  | s, l :: ls, c => copyStates o g (s + 1) ls (l.foldl (copyArc o g s) (visit o g c s))

/-- `do_reweight` (tools/src/hfst-reweight.cc:354-411). -/
def doReweight (o : Options) (g : Graph) : Graph :=
  (copyStates o g 0 g.states ⟨copyFinal o g 0 0 Graph.init, [(0, 0)], 1⟩).rep

/-! ## Rules from a file -/

/-- The two parts of a line: before the first tab, and after it (`strstr`, `hfst_strndup`,
tools/src/hfst-reweight.cc:464-476).  `none`: there is no tab. -/
def splitTab : Str → Option (Str × Str)
  | [] => none
  | '\t' :: cs => some ([], cs)
  | c :: cs => (splitTab cs).map fun r => (c :: r.1, r.2)

/-- The options after the weight of a line has been read (tools/src/hfst-reweight.cc:475-484).  `read` is `hfst_strtoweight`
(tools/src/hfst-commandline.cc:357-371), `none` if the program ends with an error. -/
def readWeight (read : Str → Option Int) (o : Options) : Str → Option Options
  | '+' :: cs => (read cs).map fun v => { o with addition := v }
  | cs => (read cs).map fun v => { o with multiplier := v }

/-- The loop over the lines of the file (tools/src/hfst-reweight.cc:453-491).  The lines are given without the newline character.
The result: the options and the transducer; `none`: the program ends with an error. -/
def rulesLoop (read : Str → Option Int) : Options → List Str → Graph → Option (Options × Graph)
  | o, [], g => some (o, g)
  | o, [] :: ls, g => rulesLoop read o ls g
  | o, ('#' :: _) :: ls, g => rulesLoop read o ls g
  | o, l :: ls, g =>
    match splitTab l with
    | none => none
    | some (sym, spec) =>
      match readWeight read { o with symbol := some sym } spec with
      | none => none
      | some o' => rulesLoop read o' ls (doReweight o' g)

/-- Whether a line is a rule, so that the pointer `symbol` is set (tools/src/hfst-reweight.cc:456-475). -/
def isRule : Str → Bool
  | [] => false
  | '#' :: _ => false
  | _ => true

/-- The loop over the transducers with a file of rules (tools/src/hfst-reweight.cc:413-502).  `freed`: the pointer `symbol` points to
memory that has been freed, so that `free(symbol)` has undefined behaviour (line 446).  After it, `symbol` is set by the first rule
of the file; it is never read before.  `removeEpsilons` is `HfstTransducer::remove_epsilons` (line 496). -/
def rulesStream (read : Str → Option Int) (removeEpsilons : Graph → Graph) (lines : List Str) :
    Options → Bool → List Graph → Tools.Run Graph
  | _, _, [] => ⟨[], .success⟩
  | o, freed, g :: gs =>
    if freed then ⟨[], .undefined⟩
    else match rulesLoop read { o with addition := 0, multiplier := 1 } lines g with
      | none => ⟨[], .failure⟩
      | some (o', g') =>
        Tools.Run.after (removeEpsilons g')
          (rulesStream read removeEpsilons lines o' (o.symbol.isSome && !lines.any isRule) gs)

/-- The loop over the transducers (tools/src/hfst-reweight.cc:413-502), with a file of rules or without. -/
def reweightStream (read : Str → Option Int) (removeEpsilons : Graph → Graph) (o : Options) (file : Option (List Str))
    (gs : List Graph) : Tools.Run Graph :=
  match file with
  | none => ⟨gs.map fun g => removeEpsilons (doReweight o g), .success⟩
  | some lines => rulesStream read removeEpsilons lines o false gs

end Hfst.Reweight
