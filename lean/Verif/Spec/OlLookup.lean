import Verif.Model.OlLookup

/-!
# What optimized lookup should find

A net is a transducer whose symbols are numbers.  The tables of a machine represent a net; a lookup should find the runs of the net.
-/
namespace Hfst.Ol
open Hfst.Basic

/-- A transition of a net. -/
structure NArc where
  input : Nat
  output : Nat
  target : Nat
  weight : Int
  deriving DecidableEq

/-- A transducer with numbered symbols; state 0 is the start. -/
structure Net where
  size : Nat
  arcs : Nat → List NArc
  final : Nat → Option Int

/-- What the symbol numbers stand for: the alphabet, from which number on symbols are unknown, and the flags. -/
structure Kinds where
  al : Alphabet
  orig : Nat
  fd : Flags.FdTable Nat

/-- The kinds of symbols of a machine. -/
def Machine.kinds (M : Machine) : Kinds := ⟨M.alphabet, M.orig, M.fd⟩

/-- The symbol is a flag diacritic. -/
def Kinds.Flag (K : Kinds) (x : Nat) : Prop := ∃ o, K.fd.getOperation x = some o

/-- The transition reads nothing: its input is epsilon or a flag. -/
def Kinds.Free (K : Kinds) (a : NArc) : Prop := a.input = 0 ∨ K.Flag a.input

/-- The transition reads the symbol `x`: a known symbol is read as itself, an unknown one as identity or as unknown. -/
def Kinds.Direct (K : Kinds) (x : Nat) (a : NArc) : Prop :=
  if x < K.orig then a.input = x else a.input ≠ noSymbol ∧ (a.input = K.al.identity ∨ a.input = K.al.unknown)

/-- What a transition can do in state `q`: read nothing (`none`) or a symbol.  A default transition reads any symbol, but only if the
state has no transition that reads nothing and none that reads the symbol itself. -/
def Takes (K : Kinds) (N : Net) (q : Nat) (a : NArc) : Option Nat → Prop
  | none => K.Free a
  | some x => K.Direct x a ∨
      (a.input ≠ noSymbol ∧ a.input = K.al.default ∧ ∀ b ∈ N.arcs q, ¬ K.Free b ∧ ¬ K.Direct x b)

/-- A run of a net: the transitions, each with the symbol that it reads. -/
inductive NRun (K : Kinds) (N : Net) : Nat → List (NArc × Option Nat) → Nat → Prop
  | nil {q : Nat} : NRun K N q [] q
  | cons {q r : Nat} {a : NArc} {c : Option Nat} {l : List (NArc × Option Nat)} :
      a ∈ N.arcs q → Takes K N q a c → NRun K N a.target l r → NRun K N q ((a, c) :: l) r

/-- What is reported for a transition: its input and its output; an output identity, unknown or default stands for the symbol that was
read. -/
def Kinds.shown (K : Kinds) : NArc × Option Nat → Nat × Nat
  | (a, none) => (a.input, a.output)
  | (a, some x) => (a.input, if K.al.isMeta a.output then x else a.output)

/-- The input that a run reads. -/
def readBy (l : List (NArc × Option Nat)) : List Nat := l.filterMap (·.2)

/-- The sum of the weights of a run. -/
def weightBy (l : List (NArc × Option Nat)) : Int := (l.map (·.1.weight)).sum

/-- The run `l` reads `ks`, is allowed by its flags, and `r` is what is reported for it. -/
def Analysis (K : Kinds) (N : Net) (flags : Flags.FdState) (ks : List Nat) (l : List (NArc × Option Nat)) (r : TwoLevel) : Prop :=
  ∃ q w, NRun K N 0 l q ∧ N.final q = some w ∧ readBy l = ks ∧ K.fd.passes flags (l.map (·.1.input)) = some true ∧
    r.1 = weightBy l + w ∧ tapeStrings K.al (l.map K.shown) = some r.2

/-! ## Tables that represent a net -/

/-- The table entry `t` stands for the transition `a`; `pos` tells where the states are. -/
def IsEntry (M : Machine) (pos : Nat → Nat) (t : Trans) (a : NArc) : Prop :=
  t.input = a.input ∧ t.output = a.output ∧ t.target = pos a.target ∧ (if M.weighted then M.weightOf t.weight else 0) = a.weight

/-- The entry of the index table says that the state is final with the weight `w`, or not final (`none`). -/
def MarksIndex (M : Machine) (e : Index) : Option Int → Prop
  | none => ¬ (e.input = noSymbol ∧ e.target ≠ noIndex)
  | some w => e.input = noSymbol ∧ e.target ≠ noIndex ∧ w = if M.weighted then M.weightOf e.target else 0

/-- The entry of the transition table says that the state is final with the weight `w`, or not final (`none`). -/
def MarksTrans (M : Machine) (t : Trans) : Option Int → Prop
  | none => ¬ (t.input = noSymbol ∧ t.output = noSymbol ∧ t.target = 1)
  | some w => t.input = noSymbol ∧ t.output = noSymbol ∧ t.target = 1 ∧ w = if M.weighted then M.weightOf t.weight else 0

/-- From place `i` on the table has entries for the transitions `l`, and then an entry with the property `stop`. -/
def Block (M : Machine) (pos : Nat → Nat) (i : Nat) (l : List NArc) (stop : Trans → Prop) : Prop :=
  (∀ (k : Nat) (a : NArc), l[k]? = some a → ∃ t, M.transitions[i + k]? = some t ∧ IsEntry M pos t a) ∧
    ∃ t, M.transitions[i + l.length]? = some t ∧ stop t

/-- Which symbols the index table has room for: `count` is the number of input symbols, and `unknowns` says whether also the symbols that
stand for unknown ones can be looked up. -/
structure Inputs where
  count : Nat
  unknowns : Prop

/-- A symbol that is looked up in the index table. -/
def IsInput (K : Kinds) (n : Inputs) (x : Nat) : Prop :=
  x ≠ 0 ∧ x ≠ noSymbol ∧ ¬ K.Flag x ∧
    (x < n.count ∨ x = K.al.default ∨ (n.unknowns ∧ (x = K.al.identity ∨ x = K.al.unknown)))

/-- Looking up a symbol in the index table finds just the transitions with the property `p`. -/
def Finds (M : Machine) (N : Net) (pos : Nat → Nat) (q x : Nat) (p : NArc → Prop) (stop : Trans → Prop) : Prop :=
  ∃ e, M.indices[pos q + 1 + x]? = some e ∧
    ((e.input ≠ x ∧ ∀ a ∈ N.arcs q, ¬ p a) ∨
     (e.input = x ∧ targetStart ≤ e.target ∧ ∃ l, l ≠ [] ∧ (∀ a, a ∈ l ↔ a ∈ N.arcs q ∧ p a) ∧
       Block M pos (e.target - targetStart) l stop))

/-- The state `q` is in the index table. -/
structure InIndex (M : Machine) (n : Inputs) (N : Net) (pos : Nat → Nat) (q : Nat) : Prop where
  low : pos q < targetStart
  state : ∃ e, M.indices[pos q]? = some e ∧ MarksIndex M e (N.final q)
  free : Finds M N pos q 0 M.kinds.Free fun t => t.input ≠ 0 ∧ ¬ M.kinds.Flag t.input
  symbol : ∀ x, IsInput M.kinds n x → Finds M N pos q x (fun a => a.input = x) fun t => t.input ≠ x

/-- The state `q` is only in the transition table. -/
structure InTransitions (M : Machine) (n : Inputs) (N : Net) (pos : Nat → Nat) (q : Nat) : Prop where
  high : targetStart ≤ pos q
  state : ∃ t, M.transitions[pos q - targetStart]? = some t ∧ MarksTrans M t (N.final q)
  block : ∃ l, (∀ a, a ∈ l ↔ a ∈ N.arcs q) ∧ Block M pos (pos q - targetStart + 1) l fun t => t.input = noSymbol
  kind : (∀ a ∈ N.arcs q, M.kinds.Free a) ∨ ∃ x, IsInput M.kinds n x ∧ ∀ a ∈ N.arcs q, a.input = x

/-- The tables represent the net; `n` tells the input symbols and `pos` tells where the states are. -/
structure Represents (M : Machine) (n : Inputs) (N : Net) (pos : Nat → Nat) : Prop where
  nonempty : 0 < N.size
  closed : ∀ q < N.size, ∀ a ∈ N.arcs q, a.target < N.size
  start : pos 0 = 0
  placed : ∀ q < N.size, InIndex M n N pos q ∨ InTransitions M n N pos q
  indexSize : M.indices.length ≤ targetStart
  transSize : M.transitions.length ≤ targetStart

/-- The symbols make sense: the special ones are not flags, flags have a feature, and the transitions have symbols in the table. -/
structure SymbolsOK (K : Kinds) (n : Inputs) (N : Net) : Prop where
  small : K.al.table.length ≤ noSymbol
  inputs : n.count ≤ K.orig
  none : ¬ K.Flag noSymbol
  epsilon : ¬ K.Flag 0
  special : ∀ x, x ≠ noSymbol → (x = K.al.identity ∨ x = K.al.unknown ∨ x = K.al.default) → x ≠ 0 ∧ ¬ K.Flag x
  features : ∀ x o, K.fd.getOperation x = some o → o.feature < K.fd.numFeatures
  known : ∀ q < N.size, ∀ a ∈ N.arcs q, a.input < K.al.table.length ∧ a.output < K.al.table.length

/-- The symbols on the input tape are input symbols or unknown ones (if there is room for them), and are in the table. -/
def TapeOK (K : Kinds) (n : Inputs) (ks : List Nat) : Prop :=
  ∀ x ∈ ks, x ≠ 0 ∧ ¬ K.Flag x ∧ (x < n.count ∨ (n.unknowns ∧ K.orig ≤ x)) ∧ x < K.al.table.length

/-- No cycle of transitions that read nothing has a flag: the states can be ranked. -/
def NoFlagCycle (K : Kinds) (N : Net) (pos : Nat → Nat) : Prop :=
  ∃ rank : Nat → Nat, ∀ q < N.size, ∀ a ∈ N.arcs q,
    (a.input = 0 → rank (pos a.target) ≤ rank (pos q)) ∧ (K.Flag a.input → rank (pos a.target) < rank (pos q))

end Hfst.Ol
