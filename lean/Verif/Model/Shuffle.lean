import Verif.Model.Transducer

/-!
# Shuffle

Model of libhfst/src/HfstTransducer.cc:4643-4803, without the type checks.
-/
namespace Hfst.Trans
open Hfst.Basic

/-- `code_symbols_for_shuffle` in its three cases (libhfst/src/HfstTransducer.cc:4664-4711): the symbol, unless it is epsilon or
unknown, is replaced by what `f` makes of it.  The flag `shuffle_failed` is in `notAutomaton`. -/
def codeSymbols (f : Sym → Sym) (p : Sym × Sym) : Option (List (Sym × Sym)) :=
  if p.1 ≠ p.2 then none
  else if p.1 = epsilon ∨ p.1 = unknown then none
  else some [(f p.1, f p.1)]

/-- `"@1" + symbol` and `"@2" + symbol` (libhfst/src/HfstTransducer.cc:4683, 4692). -/
def encodeFirst (x : Sym) : Sym := '@' :: '1' :: x

/-- See `encodeFirst` (libhfst/src/HfstTransducer.cc:4692). -/
def encodeSecond (x : Sym) : Sym := '@' :: '2' :: x

/-- `sp.first.substr(2)` (libhfst/src/HfstTransducer.cc:4701).  `substr` throws on a symbol of one byte; no such symbol is left
when this is called. -/
def decode (x : Sym) : Sym := x.drop 2

/-- `shuffle_failed` after the substitution (libhfst/src/HfstTransducer.cc:4668-4672): some transition has two different symbols. -/
def notAutomaton (g : Graph) : Bool := g.states.any fun l => l.any fun a => decide (a.inp ≠ a.out)

/-- Encoding one of the arguments (libhfst/src/HfstTransducer.cc:4733-4746): the symbols in the alphabet before are removed. -/
def encodeGraph (f : Sym → Sym) (g : Graph) : Outcome Graph :=
  (g.substituteFunc (codeSymbols f)).bind fun r => .ok (r.removeSymbols g.alphabet)

/-- The alphabet as pairs (libhfst/src/HfstTransducer.cc:4758-4772). -/
def pairsOf (al : List Sym) : List (Sym × Sym) := al.map fun x => (x, x)

/-- `HfstTransducer::shuffle` (libhfst/src/HfstTransducer.cc:4714-4803). -/
def shuffle (B : Backend) (g h : Graph) : Outcome Graph :=
  (harmonize (convert g) (convert h)).bind fun p =>
  (encodeGraph encodeFirst p.1).bind fun a =>
  (encodeGraph encodeSecond p.2).bind fun b =>
  if notAutomaton p.1 || notAutomaton p.2 then .throws
  else
    (a.insertFreely (pairsOf b.alphabet) 0).bind fun a' =>
    (b.insertFreely (pairsOf a.alphabet) 0).bind fun b' =>
    (intersect B (convert a') (convert b')).bind fun r =>
    ((convert (B.optimize r)).substituteFunc (codeSymbols decode)).bind fun r =>
      .ok (convert ((r.removeSymbols a.alphabet).removeSymbols b.alphabet))

end Hfst.Trans
