import Verif.Model.Graph
import Verif.Model.Flags

/-!
# `HarmonizeUnknownAndIdentitySymbols`

Model of libhfst/src/HarmonizeUnknownAndIdentitySymbols.cc:31-296, without the debug output.  A failing assertion is
reported as `throws`.  Sets are lists; their order does not matter.
-/
namespace Hfst.Basic

/-- `PmatchAlphabet::is_insertion` (libhfst/src/implementations/optimized-lookup/pmatch.cc:898-902). -/
def isInsertion (x : Sym) : Bool := ['@', 'I', '.'].isPrefixOf x && x.getLast? = some '@'

/-- `PmatchAlphabet::is_list` (libhfst/src/implementations/optimized-lookup/pmatch.cc:918-923). -/
def isList (x : Sym) : Bool :=
  (['@', 'L', '.'].isPrefixOf x || ['@', 'X', '.'].isPrefixOf x) && x.getLast? = some '@' && decide (x.length > 4)

/-- `PmatchAlphabet::is_special` (libhfst/src/implementations/optimized-lookup/pmatch.cc:946-970).  The length is in
characters and not in bytes; this makes no difference, since all prefixes are ASCII. -/
def isPmatchSpecial (x : Sym) : Bool :=
  if x.length < 3 then false
  else if x = "@PMATCH_INPUT_MARK@".toList ∨ x = "@PMATCH_BACKTRACK@".toList then false
  else if isInsertion x = true ∨ x = "@BOUNDARY@".toList ∨ x = "@UNICODE_ALPHA@".toList ∨ x = "@UNICODE_UPPERALPHA@".toList ∨
      x = "@UNICODE_LOWERALPHA@".toList ∨ x = "@UNICODE_WHITESPACE@".toList then true
  else ("@PMATCH".toList.isPrefixOf x && x.getLast? = some '@') || isList x

/-- `remove_flags` (libhfst/src/HarmonizeUnknownAndIdentitySymbols.cc:43-55). -/
def removeFlagsSet (al : List Sym) : List Sym := al.filter fun x => !Flags.isDiacritic x && !isPmatchSpecial x

/-- `std::set_difference` (used in libhfst/src/HarmonizeUnknownAndIdentitySymbols.cc:83-88, 102-106). -/
def setDiff (a b : List Sym) : List Sym := a.filter fun x => decide (x ∉ b)

/-- The transitions added for one identity transition (libhfst/src/HarmonizeUnknownAndIdentitySymbols.cc:210-216). -/
def identityAdds (missing : List Sym) (a : Arc) : List Arc :=
  if a.inp = identity then missing.map fun k => ⟨a.target, k, k, a.weight⟩ else []

/-- `harmonize_identity_symbols` (libhfst/src/HarmonizeUnknownAndIdentitySymbols.cc:189-222). -/
def harmonizeIdentity (g : Graph) (missing : List Sym) : Outcome Graph :=
  if missing = [] then .ok g
  else if g.states.any fun l => l.any fun a => decide (a.inp = identity ∧ a.out ≠ identity) then .throws
  else .ok { g with states := g.states.map fun l => l ++ l.flatMap (identityAdds missing) }

/-- The transitions added for one transition with unknown symbols
(libhfst/src/HarmonizeUnknownAndIdentitySymbols.cc:240-291). -/
def unknownAdds (missing : List Sym) (a : Arc) : List Arc :=
  (if a.inp = unknown then missing.map fun k => ⟨a.target, k, a.out, a.weight⟩ else []) ++
  (if a.out = unknown then missing.map fun k => ⟨a.target, a.inp, k, a.weight⟩ else []) ++
  (if a.inp = unknown ∧ a.out = unknown then
    missing.flatMap fun k => (missing.filter fun l => decide (l ≠ k)).map fun l => ⟨a.target, l, k, a.weight⟩
  else [])

/-- The assertions at libhfst/src/HarmonizeUnknownAndIdentitySymbols.cc:244, 260. -/
def unknownBad (a : Arc) : Bool :=
  decide ((a.inp = unknown ∧ a.out = identity) ∨ (a.out = unknown ∧ a.inp = identity))

/-- `harmonize_unknown_symbols` (libhfst/src/HarmonizeUnknownAndIdentitySymbols.cc:225-296). -/
def harmonizeUnknown (g : Graph) (missing : List Sym) : Outcome Graph :=
  if missing = [] then .ok g
  else if g.states.any fun l => l.any unknownBad then .throws
  else .ok { g with states := g.states.map fun l => l ++ l.flatMap (unknownAdds missing) }

/-- The constructor, that is, `HfstBasicTransducer::harmonize` (libhfst/src/HarmonizeUnknownAndIdentitySymbols.cc:57-156,
libhfst/src/implementations/HfstBasicTransducer.cc:3089-3094).  As in the code, identity and unknown are only erased from one
of the differences. -/
def harmonize (g1 g2 : Graph) : Outcome (Graph × Graph) :=
  let set1 := removeFlagsSet g1.alphabet
  let set2 := removeFlagsSet g2.alphabet
  let only1 := setErase (setErase (setDiff set1 set2) identity) unknown
  let only2 := setDiff set2 set1
  (harmonizeIdentity g1 only2).bind fun h1 =>
  (harmonizeIdentity g2 only1).bind fun h2 =>
  (harmonizeUnknown h1 only2).bind fun h1 =>
  (harmonizeUnknown h2 only1).bind fun h2 =>
    let h1 := h1.addSymbols h2.alphabet
    .ok (h1, h2.addSymbols h1.alphabet)

end Hfst.Basic
