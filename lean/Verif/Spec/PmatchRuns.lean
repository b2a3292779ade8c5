import Verif.Spec.Pmatch
import Verif.Spec.OlLookup

/-!
# What pattern matching should find

Several nets call each other.  A match is a run of the first net; a call runs through the called net and goes on in the caller.
-/
namespace Hfst.Pmatch
open Hfst.Basic Hfst.Ol

/-- A net, and the number from which on it does not know symbols. -/
structure Part where
  net : Net
  orig : Nat

/-- A transition with the input `x` reads nothing: `x` is epsilon or calls a net. -/
def Free (al : PmAlphabet) (x : Nat) : Prop := x = 0 ∨ al.rtn x ≠ none

/-- A transition with the input `x` reads the symbol `c`: `x` is a list that allows `c`, or a class of letters that `c` belongs to, or `c` itself
if it is known, or identity or unknown if it is not. -/
def Reads (al : PmAlphabet) (orig c x : Nat) : Prop := x ≠ noSymbol ∧
  ((∃ l xs, al.symbol2lists[c]? = some l ∧ l ≠ noSymbol ∧ al.symbolLists[l]? = some xs ∧ x ∈ xs) ∨
   (x = al.alpha ∧ (al.isLower c = true ∨ al.isUpper c = true)) ∨ (x = al.upper ∧ al.isUpper c = true) ∨
   (x = al.lower ∧ al.isLower c = true) ∨ (x = al.space ∧ al.isSpace c = true) ∨
   (c < orig ∧ x = c) ∨ (orig ≤ c ∧ (x = al.base.identity ∨ x = al.base.unknown)))

/-- What a transition writes when it reads `c`: if its output stands for other symbols, the symbol that was read. -/
def written (al : PmAlphabet) (c : Nat) (a : NArc) : Nat × Nat :=
  if al.isMeta a.output = true ∨ (al.list2symbols[a.output]?).getD noSymbol ≠ noSymbol then (c, c) else (a.input, a.output)

/-- `Run n t q stack ip jp tape w`: a run with `n` steps that starts in state `q` of the net `t` at the place `ip` of the input and ends at the
place `jp`.  It writes `tape` and has the weight `w`; `stack` tells where to go on after a call. -/
inductive Run (al : PmAlphabet) (Ns : List Part) (input : List Nat) : Nat → Nat → Nat → List (Nat × Nat) → Nat → Nat → List (Nat × Nat) → Int → Prop
  | stop {t q ip : Nat} {N : Part} {w : Int} : Ns[t]? = some N → N.net.final q = some w → Run al Ns input 0 t q [] ip ip [] w
  | back {n t q caller target ip jp : Nat} {stack tape : List (Nat × Nat)} {N : Part} {w v : Int} : Ns[t]? = some N → N.net.final q = some w →
      Run al Ns input n caller target stack ip jp tape v → Run al Ns input (n + 1) t q ((caller, target) :: stack) ip jp tape (w + v)
  | epsilon {n t q ip jp : Nat} {stack tape : List (Nat × Nat)} {N : Part} {a : NArc} {v : Int} : Ns[t]? = some N → a ∈ N.net.arcs q → a.input = 0 →
      Run al Ns input n t a.target stack ip jp tape v → Run al Ns input (n + 1) t q stack ip jp ((0, a.output) :: tape) (a.weight + v)
  | call {n t q u ip jp : Nat} {stack tape : List (Nat × Nat)} {N : Part} {a : NArc} {v : Int} : Ns[t]? = some N → a ∈ N.net.arcs q → a.input ≠ 0 →
      al.rtn a.input = some u → Run al Ns input n u 0 ((t, a.target) :: stack) ip jp tape v →
      Run al Ns input (n + 1) t q stack ip jp tape (a.weight + v)
  | read {n t q c ip jp : Nat} {stack tape : List (Nat × Nat)} {N : Part} {a : NArc} {v : Int} : Ns[t]? = some N → a ∈ N.net.arcs q →
      input[ip]? = some c → Reads al N.orig c a.input → Run al Ns input n t a.target stack (ip + 1) jp tape v →
      Run al Ns input (n + 1) t q stack ip jp (written al c a :: tape) (a.weight + v)

/-- The first net matches the input from `i` to `j`, in fewer than `depth` steps. -/
def Matches (al : PmAlphabet) (Ns : List Part) (input : List Nat) (depth i j : Nat) (tape : List (Nat × Nat)) (w : Int) : Prop :=
  ∃ n < depth, Run al Ns input n 0 0 [] i j tape w

/-- What `match` should write from place `i` on: where there is no match, the next symbol is copied; otherwise one of the longest matches, one
with the least weight, is written.  Matches that read nothing may be written, too. -/
inductive Scan (M : Nat → Nat → List (Nat × Nat) → Int → Prop) (input : List Nat) : Nat → List (Nat × Nat) → Prop
  | done : Scan M input input.length []
  | copy {i c : Nat} {out : List (Nat × Nat)} : input[i]? = some c → (∀ j tape w, M i j tape w → j = i) → Scan M input (i + 1) out →
      Scan M input i ((c, c) :: out)
  | empty {i c : Nat} {tape out : List (Nat × Nat)} {w : Int} : input[i]? = some c → (∀ j tape w, M i j tape w → j = i) → M i i tape w →
      Scan M input (i + 1) out → Scan M input i (tape ++ (c, c) :: out)
  | longest {i j : Nat} {tape out : List (Nat × Nat)} {w : Int} : i < j → M i j tape w →
      (∀ j' tape' w', M i j' tape' w' → j' < j ∨ (j' = j ∧ w ≤ w')) → Scan M input j out → Scan M input i (tape ++ out)

/-- What a location tells of a match. -/
structure Tells (al : PmAlphabet) (tape : List (Nat × Nat)) (w : Int) (l : Location) : Prop where
  weight : l.weight = w
  output : l.outputSymbols = shownSymbols al (tape.map (·.2))
  text : l.output = (shownSymbols al (tape.map (·.2))).flatten
  tag : l.tag = ((tape.reverse.find? fun p => al.isEndTag p.2).map fun p => al.startTag p.2).getD []

/-- The group has all matches from `i` to `j`, sorted by weight. -/
structure Group (M : Nat → Nat → List (Nat × Nat) → Int → Prop) (al : PmAlphabet) (i j : Nat) (g : List Location) : Prop where
  sound : ∀ l ∈ g, ∃ tape w, M i j tape w ∧ Tells al tape w l
  complete : ∀ tape w, M i j tape w → ∃ l ∈ g, Tells al tape w l
  sorted : g.Pairwise fun l l' => l.weight ≤ l'.weight

/-- The groups that `locate` should give from place `i` on, apart from the parts that do not match: all longest matches. -/
inductive Located (M : Nat → Nat → List (Nat × Nat) → Int → Prop) (al : PmAlphabet) (n : Nat) : Nat → List (List Location) → Prop
  | done : Located M al n n []
  | skip {i : Nat} {gs : List (List Location)} : (∀ j tape w, ¬ M i j tape w) → Located M al n (i + 1) gs → Located M al n i gs
  | empty {i : Nat} {g : List Location} {gs : List (List Location)} : (∀ j tape w, M i j tape w → j = i) → g ≠ [] → Group M al i i g →
      Located M al n (i + 1) gs → Located M al n i (g :: gs)
  | longest {i j : Nat} {g : List Location} {gs : List (List Location)} : i < j → (∀ j' tape w, M i j' tape w → j' ≤ j) → g ≠ [] →
      Group M al i j g → Located M al n j gs → Located M al n i (g :: gs)

/-- The groups with locations for what did not match put in between. -/
inductive WithGaps : List (List Location) → List (List Location) → Prop
  | nil : WithGaps [] []
  | keep {g : List Location} {gs hs : List (List Location)} : WithGaps gs hs → WithGaps (g :: gs) (g :: hs)
  | gap {l : Location} {gs hs : List (List Location)} : l.output = nonmatching → WithGaps gs hs → WithGaps ([l] :: gs) hs

/-! ## Tables -/

/-- The table entry `t` stands for the transition `a`; `pos` tells where the states are. -/
def Entry (weightOf : Nat → Int) (pos : Nat → Nat) (t : Trans) (a : NArc) : Prop :=
  t.input = a.input ∧ t.output = a.output ∧ t.target = pos a.target ∧ weightOf t.weight = a.weight

/-- From place `i` on the table has entries for the transitions `l`, and then an entry with the property `stop`. -/
def Entries (weightOf : Nat → Int) (T : Tables) (pos : Nat → Nat) (i : Nat) (l : List NArc) (stop : Trans → Prop) : Prop :=
  (∀ (k : Nat) (a : NArc), l[k]? = some a → ∃ t, T.transitions[i + k]? = some t ∧ Entry weightOf pos t a) ∧
    ∃ t, T.transitions[i + l.length]? = some t ∧ stop t

/-- Looking up a symbol in the index table finds just the transitions with the property `p`. -/
def Indexed (weightOf : Nat → Int) (T : Tables) (N : Part) (pos : Nat → Nat) (q x : Nat) (p : NArc → Prop) (stop : Trans → Prop) : Prop :=
  ∃ e, T.indices[pos q + 1 + x]? = some e ∧
    ((e.input ≠ x ∧ ∀ a ∈ N.net.arcs q, ¬ p a) ∨
     (e.input = x ∧ targetStart ≤ e.target ∧ ∃ l, (∀ a, a ∈ l ↔ a ∈ N.net.arcs q ∧ p a) ∧
       Entries weightOf T pos (e.target - targetStart) l stop))

/-- The state `q` is in the index table. -/
structure AtIndex (al : PmAlphabet) (weightOf : Nat → Int) (looked : Nat → Prop) (N : Part) (T : Tables) (pos : Nat → Nat) (q : Nat) : Prop where
  low : pos q + 1 < targetStart
  state : ∃ e, T.indices[pos q]? = some e ∧ (if e.final then some (weightOf e.target) else none) = N.net.final q
  free : Indexed weightOf T N pos q 0 (fun a => Free al a.input) fun t => ¬ Free al t.input
  symbol : ∀ x, looked x → Indexed weightOf T N pos q x (fun a => a.input = x) fun t => t.input ≠ x

/-- The state `q` is only in the transition table. -/
structure AtTransitions (al : PmAlphabet) (weightOf : Nat → Int) (N : Part) (T : Tables) (pos : Nat → Nat) (q : Nat) : Prop where
  high : targetStart ≤ pos q
  state : ∃ t, T.transitions[pos q - targetStart]? = some t ∧ (if t.final then some (weightOf t.weight) else none) = N.net.final q
  block : ∃ l, (∀ a, a ∈ l ↔ a ∈ N.net.arcs q) ∧ Entries weightOf T pos (pos q - targetStart + 1) l fun t => t.input = noSymbol
  kind : (∀ a ∈ N.net.arcs q, Free al a.input) ∨ ∃ x, ¬ Free al x ∧ ∀ a ∈ N.net.arcs q, a.input = x

/-- The tables represent the net; `looked` are the symbols that are looked up, and `pos` tells where the states are. -/
structure Stored (al : PmAlphabet) (weightOf : Nat → Int) (looked : Nat → Prop) (N : Part) (T : Tables) (pos : Nat → Nat) : Prop where
  orig : T.orig = N.orig
  nonempty : 0 < N.net.size
  closed : ∀ q < N.net.size, ∀ a ∈ N.net.arcs q, a.target < N.net.size
  start : pos 0 = 0
  placed : ∀ q < N.net.size, AtIndex al weightOf looked N T pos q ∨ AtTransitions al weightOf N T pos q
  size : T.transitions.length ≤ targetStart

/-- The entries and exits are balanced: `level` counts the entries without exits. -/
structure Balanced (al : PmAlphabet) (N : Part) (level : Nat → Nat) : Prop where
  start : level 0 = 0
  entry : ∀ q < N.net.size, ∀ a ∈ N.net.arcs q, a.input = 0 → a.output = al.entry → level a.target = level q + 1
  exit : ∀ q < N.net.size, ∀ a ∈ N.net.arcs q, a.input = 0 → a.output ≠ al.entry → a.output = al.exit → level q = level a.target + 1
  other : ∀ q < N.net.size, ∀ a ∈ N.net.arcs q, a.input ≠ 0 ∨ (a.output ≠ al.entry ∧ a.output ≠ al.exit) → level a.target = level q

/-- What is needed for exact matching: neither flags nor captures nor the default symbol nor pass-through symbols, no weight limit, and the
symbols of the input and those that are looked up for them are not special. -/
structure Simple (C : Config) (Ns : List Part) (pos level : Nat → Nat → Nat) : Prop where
  flags : ∀ x, C.al.fd.getOperation x = none
  default : C.al.base.default = noSymbol
  passthrough : C.al.passthrough = noSymbol
  maxWeight : C.maxWeight = none
  none : C.al.rtn noSymbol = none
  count : C.nets.length = Ns.length
  first : 0 < Ns.length
  calls : ∀ x u, C.al.rtn x = some u → u < Ns.length
  stored : ∀ (t : Nat) (N : Part) (T : Tables), Ns[t]? = some N → C.nets[t]? = some T →
    Stored C.al C.weightOf (fun x => ∃ c ∈ C.input, Reads C.al N.orig c x) N T (pos t)
  balanced : ∀ (t : Nat) (N : Part), Ns[t]? = some N → Balanced C.al N (level t)
  outputs : ∀ (t : Nat) (N : Part), Ns[t]? = some N → ∀ q < N.net.size, ∀ a ∈ N.net.arcs q, (∃ l, C.al.list2symbols[a.output]? = some l) ∧
    C.al.capture2captured[a.output]? = some noSymbol ∧ C.al.captured2capture[a.output]? = some noSymbol
  symbols : ∀ c ∈ C.input, c ≠ noSymbol ∧ ∃ l, C.al.symbol2lists[c]? = some l ∧
    (l ≠ noSymbol → ∃ xs, C.al.symbolLists[l]? = some xs ∧ noSymbol ∉ xs)
  looked : ∀ (N : Part) (c x : Nat), N ∈ Ns → c ∈ C.input → Reads C.al N.orig c x → ¬ Free C.al x

/-- The first symbols are right: a symbol that is not among them begins no match. -/
def FirstOK (C : Config) (Ns : List Part) (depth : Nat) (first : List Bool) : Prop :=
  first ≠ [] → ∀ i c, C.input[i]? = some c → (first[c]?).getD false = false → ∀ j tape w, ¬ Matches C.al Ns C.input depth i j tape w

/-- `order` sorts by weight. -/
structure Sorts (order : List Location → List Location) : Prop where
  perm : ∀ l x, x ∈ order l ↔ x ∈ l
  sorted : ∀ l, (order l).Pairwise fun a b => a.weight ≤ b.weight

end Hfst.Pmatch
