import Verif.Model.Lexc
import Verif.Props.Tokenizer
import Verif.Props.GraphSplice

/-!
# What a lexicon means, and what is asked of a back-end

Specification of property C71.
-/
namespace Hfst.Lexc
open Hfst.Basic
open Hfst.Tok (Bytes Cut)

/-- A sequence of symbol pairs without its epsilon pairs. -/
def strip (l : List (Sym × Sym)) : List (Sym × Sym) := l.filter fun p => p ≠ (epsilon, epsilon)

/-- `g` accepts `l` (up to epsilon pairs) with a weight of at most `w`.  The weight of `l` in `g` is the smallest such
`w`; two transducers with the same `Cost` accept the same sequences with the same best weights. -/
def Cost (g : Graph) (l : List (Sym × Sym)) (w : Int) : Prop :=
  ∃ l' w', Accepts g l' w' ∧ strip l' = l ∧ w' ≤ w

/-! ## Lexicons -/

/-- An entry of a lexicon: the lexicon it stands in, its continuation, the sequences it stands for with their weights
(`lang l v`: `l` for at most `v`), its own weight.  `symbols` are the symbols written in the entry (none for a regular
expression). -/
structure Entry where
  lex : Bytes
  cont : Bytes
  lang : List (Sym × Sym) → Int → Prop
  weight : Int
  regexp : Bool
  symbols : List Sym

/-- The sequences one gets by starting in lexicon `n`, choosing an entry there, going on in its continuation and so on
until an entry with the continuation `#`; the weights add up to at most `w`. -/
inductive Chain (es : List Entry) : Bytes → List (Sym × Sym) → Int → Prop
  | last {e : Entry} {l : List (Sym × Sym)} {v w : Int} :
      e ∈ es → e.cont = lit "#" → e.lang l v → v + e.weight ≤ w → Chain es e.lex l w
  | more {e : Entry} {l l' : List (Sym × Sym)} {v w w' : Int} :
      e ∈ es → e.lang l v → Chain es e.cont l' w' → v + e.weight + w' ≤ w → Chain es e.lex (l ++ l') w

/-- Two sides of an entry side by side, the shorter one filled up. -/
def zipPad {α : Type} (pad : α) : List α → List α → List (α × α)
  | [], [] => []
  | a :: as, [] => (a, pad) :: zipPad pad as []
  | [], b :: bs => (pad, b) :: zipPad pad [] bs
  | a :: as, b :: bs => (a, b) :: zipPad pad as bs

/-- Symbols that are always known. -/
def baseSymbols : List Bytes :=
  [lit "@_EPSILON_SYMBOL_@", lit "@0@", lit "@ZERO@", lit "@@ANOTHER_EPSILON@@", lit "0"]

/-- The text of a symbol as it is kept: a bare `0` becomes `@0@` and an escaped one (`@ZERO@`) becomes `0`. -/
def spelled (t : Bytes) : Bytes :=
  if t = lit "0" then lit "@0@" else replaceFirst (lit "@ZERO@") (lit "0") t

/-- The symbol a piece of text stands for: `0` is epsilon, an escaped zero is the symbol `0`, every other symbol is
itself. -/
def symbol (t : Bytes) : Sym :=
  if spelled t = lit "@0@" ∨ spelled t = lit "@@ANOTHER_EPSILON@@" then epsilon else sym (spelled t)

/-- Whether a symbol is written between two `@`. -/
def atMarked (x : Bytes) : Bool := (lit "@").isPrefixOf x && (lit "@").isSuffixOf x

/-- The symbols of an entry that are known from then on.  A symbol between two `@` is only known if it was declared, and if
the upper symbol of a pair is such a symbol and unknown, the lower one is not remembered either. -/
def learned (known : List Bytes) (l : List (Bytes × Bytes)) : List Bytes :=
  l.flatMap fun p =>
    if atMarked p.1 ∧ p.1 ∉ known then []
    else (if atMarked p.1 then [] else [p.1]) ++ (if atMarked p.2 then [] else [p.2])

/-- A side of a pair that is just `0` is empty. -/
def side (t : Bytes) : Bytes := if t = lit "0" then [] else t

/-- The grapheme clusters of more than one code point of a text; with the option to split them there are none. -/
def clustersOf (cfg : Config) (t : Bytes) : List Bytes := if cfg.split then [] else cfg.clusters t

/-- `Reads cfg symbolsOf known lex calls es known'`: while the symbols `known` are known and lexicon `lex` is open, the
lines `calls` stand for the entries `es`, and afterwards the symbols `known'` are known.  Every text is cut from the left into
the longest known symbols, or single characters where no known symbol fits.  Symbols become known when they are declared or
occur. -/
inductive Reads (cfg : Config) (symbolsOf : Graph → List Sym) :
    List Bytes → Bytes → List Call → List Entry → List Bytes → Prop
  | nil {known : List Bytes} {lex : Bytes} : Reads cfg symbolsOf known lex [] [] known
  | noFlag {known : List Bytes} {lex : Bytes} {n : Bytes} {xs : List Call} {es : List Entry} {known' : List Bytes} :
      Reads cfg symbolsOf known lex xs es known' → Reads cfg symbolsOf known lex (.noFlag n :: xs) es known'
  | multichar {known : List Bytes} {lex : Bytes} {m : Bytes} {xs : List Call} {es : List Entry} {known' : List Bytes} :
      Reads cfg symbolsOf
        (known ++ [m, replaceFirst (lit "@ZERO@") (lit "0") m, replaceFirst (lit "0") (lit "@ZERO@") m]) lex xs es known' →
      Reads cfg symbolsOf known lex (.multichar m :: xs) es known'
  | lexicon {known : List Bytes} {lex : Bytes} {n : Bytes} {xs : List Call} {es : List Entry} {known' : List Bytes} :
      Reads cfg symbolsOf known n xs es known' → Reads cfg symbolsOf known lex (.lexicon n :: xs) es known'
  | string {known : List Bytes} {lex : Bytes} {data cont : Bytes} {w : Int} {toks : List Bytes} {xs : List Call}
      {es : List Entry} {known' : List Bytes} :
      Cut (known ++ clustersOf cfg data ++ baseSymbols) (Tok.charSize cfg.grapheme cfg.split) data toks →
      Reads cfg symbolsOf (known ++ clustersOf cfg data ++
        learned (known ++ clustersOf cfg data) (toks.map fun t => (spelled t, spelled t))) lex xs es known' →
      Reads cfg symbolsOf known lex (.string data cont w :: xs)
        ({ lex := lex, cont := cont, weight := w, regexp := false, symbols := toks.map symbol,
           lang := fun l v => l = strip (toks.map fun t => (symbol t, symbol t)) ∧ 0 ≤ v } :: es) known'
  | pair {known : List Bytes} {lex : Bytes} {upper lower cont : Bytes} {w : Int} {us ls : List Bytes} {xs : List Call}
      {es : List Entry} {known' : List Bytes} :
      Cut (known ++ clustersOf cfg (side upper) ++ clustersOf cfg (side lower) ++ baseSymbols)
        (Tok.charSize cfg.grapheme cfg.split) (side upper) us →
      Cut (known ++ clustersOf cfg (side upper) ++ clustersOf cfg (side lower) ++ baseSymbols)
        (Tok.charSize cfg.grapheme cfg.split) (side lower) ls →
      Reads cfg symbolsOf (known ++ clustersOf cfg (side upper) ++ clustersOf cfg (side lower) ++
        learned (known ++ clustersOf cfg (side upper) ++ clustersOf cfg (side lower))
          ((zipPad (lit "@@ANOTHER_EPSILON@@") us ls).map fun p => (spelled p.1, spelled p.2))) lex xs es known' →
      Reads cfg symbolsOf known lex (.pair upper lower cont w :: xs)
        ({ lex := lex, cont := cont, weight := w, regexp := false, symbols := us.map symbol ++ ls.map symbol,
           lang := fun l v => l = strip (zipPad epsilon (us.map symbol) (ls.map symbol)) ∧ 0 ≤ v } :: es) known'
  | regexp {known : List Bytes} {lex : Bytes} {re cont : Bytes} {w : Int} {g : Graph} {xs : List Call}
      {es : List Entry} {known' : List Bytes} :
      cfg.xre re = some g →
      Reads cfg symbolsOf (known ++ ((symbolsOf g).filter fun x => x ∉ [epsilon, unknown, identity]).map bytes) lex xs es
        known' →
      Reads cfg symbolsOf known lex (.regexp re cont w :: xs)
        ({ lex := lex, cont := cont, weight := w, regexp := true, symbols := [], lang := Cost g } :: es) known'

/-- The names of the lexicons in the order of the file. -/
def lexiconNames : List Call → List Bytes
  | [] => []
  | .lexicon n :: xs => n :: lexiconNames xs
  | _ :: xs => lexiconNames xs

/-- Where words begin: in the lexicon `Root` if there is one, otherwise in the first lexicon. -/
def startLexicon (calls : List Call) : Bytes :=
  if lit "Root" ∈ lexiconNames calls then lit "Root" else (lexiconNames calls).headD (lit "Root")

/-! ## The back-end -/

/-- A transducer as the back-ends hand it out: transitions lead to existing states, the alphabet has all symbols that are
used, every state has one final weight at most. -/
structure Good (g : Graph) : Prop where
  wf : WF g
  alpha : AlphaOK g
  finals : FinalMap g

/-- The symbol pair occurs on a transition. -/
def HasLabel (g : Graph) (p : Sym × Sym) : Prop := ∃ s, ∃ a ∈ g.arcs s, a.label = p

/-- No transition has the unknown or the identity symbol. -/
def Closed (g : Graph) : Prop :=
  ∀ p, HasLabel g p → p.1 ≠ unknown ∧ p.1 ≠ identity ∧ p.2 ≠ unknown ∧ p.2 ≠ identity

/-- Concatenations of any number of sequences of `L`, with added weights. -/
inductive Star (L : List (Sym × Sym) → Int → Prop) : List (Sym × Sym) → Int → Prop
  | nil {w : Int} : 0 ≤ w → Star L [] w
  | cons {l l' : List (Sym × Sym)} {v v' : Int} : L l v → Star L l' v' → Star L (l ++ l') (v + v')

/-- The sequence on the output side, epsilons left out, as a sequence of identity pairs. -/
def outputs (l : List (Sym × Sym)) : List (Sym × Sym) := ((l.map (·.2)).filter fun x => x ≠ epsilon).map fun x => (x, x)

/-- What is assumed of a back-end: its operations compute what they are documented to compute, on transducers without
unknown and identity symbols, and put no new symbol pairs on transitions.  Composition is only described for a second
transducer that accepts identity pairs only. -/
structure Backend.Ok (B : Backend) : Prop where
  optimize_good : ∀ g, Good g → Good (B.optimize g)
  optimize_cost : ∀ g, Good g → ∀ l w, Cost (B.optimize g) l w ↔ Cost g l w
  optimize_labels : ∀ g, Good g → ∀ p, HasLabel (B.optimize g) p → HasLabel g p ∨ p = (epsilon, epsilon)
  star_good : ∀ g, Good g → Good (B.star g)
  star_cost : ∀ g, Good g → ∀ l w, Cost (B.star g) l w ↔ Star (Cost g) l w
  star_labels : ∀ g, Good g → ∀ p, HasLabel (B.star g) p → HasLabel g p ∨ p = (epsilon, epsilon)
  concat_good : ∀ g h, Good g → Good h → Good (B.concat g h)
  concat_cost : ∀ g h, Good g → Good h → Closed g → Closed h → ∀ l w, Cost (B.concat g h) l w ↔
    ∃ l₁ l₂ w₁ w₂, Cost g l₁ w₁ ∧ Cost h l₂ w₂ ∧ l = l₁ ++ l₂ ∧ w = w₁ + w₂
  concat_labels : ∀ g h, Good g → Good h → Closed g → Closed h → ∀ p, HasLabel (B.concat g h) p →
    HasLabel g p ∨ HasLabel h p ∨ p = (epsilon, epsilon)
  disjunct_good : ∀ g h, Good g → Good h → Good (B.disjunct g h)
  disjunct_cost : ∀ g h, Good g → Good h → Closed g → Closed h → ∀ l w, Cost (B.disjunct g h) l w ↔ Cost g l w ∨ Cost h l w
  disjunct_labels : ∀ g h, Good g → Good h → Closed g → Closed h → ∀ p, HasLabel (B.disjunct g h) p →
    HasLabel g p ∨ HasLabel h p ∨ p = (epsilon, epsilon)
  compose_good : ∀ g h, Good g → Good h → Good (B.compose g h)
  compose_cost : ∀ g h, Good g → Good h → Closed g → Closed h → (∀ p, HasLabel h p → p.1 = p.2) →
    ∀ l w, Cost (B.compose g h) l w ↔ ∃ w₁ w₂, Cost g l w₁ ∧ Cost h (outputs l) w₂ ∧ w = w₁ + w₂
  compose_labels : ∀ g h, Good g → Good h → Closed g → Closed h → (∀ p, HasLabel h p → p.1 = p.2) →
    ∀ p, HasLabel (B.compose g h) p → HasLabel g p ∨ p = (epsilon, epsilon)

/-! ## Conditions on a lexicon -/

/-- No dollar sign (the compiler uses it for symbols of its own), and no byte 0 or 255. -/
def Plain (b : Bytes) : Prop := ∀ x ∈ b, x ≠ 36 ∧ x ≠ 0 ∧ x ≠ 255

/-- A name of a lexicon has no `$` and no `@`. -/
def NameOk (n : Bytes) : Prop := Plain n ∧ (64 : UInt8) ∉ n

/-- A text of an entry is plain and its last character ends where a dollar sign follows. -/
structure TextOk (cfg : Config) (t : Bytes) : Prop where
  plain : Plain t
  border : ∀ r c, r <:+ t → r ≠ [] →
    Tok.charSize cfg.grapheme cfg.split (r ++ 36 :: c) = Tok.charSize cfg.grapheme cfg.split r

/-- No known symbol and no character reaches from the text into the epsilon symbol that is used to fill up the shorter side of
a pair. -/
structure Apart (cfg : Config) (known : List Bytes) (t : Bytes) : Prop where
  symbols : ∀ r c, r <:+ t → r ≠ [] → ∀ q ∈ known, q <+: r ++ (lit "@@ANOTHER_EPSILON@@" ++ c) → q.length ≤ r.length
  chars : ∀ r c, r <:+ t → r ≠ [] → Tok.charSize cfg.grapheme cfg.split (r ++ (lit "@@ANOTHER_EPSILON@@" ++ c)) =
    Tok.charSize cfg.grapheme cfg.split r

/-- Conditions on one line. -/
def CallOk (cfg : Config) (known : List Bytes) : Call → Prop
  | .noFlag _ => True
  | .multichar _ => True
  | .lexicon n => NameOk n
  | .string d k _ => NameOk k ∧ TextOk cfg d
  | .pair u l k _ => NameOk k ∧ TextOk cfg (side u) ∧ TextOk cfg (side l) ∧
      Apart cfg (known ++ baseSymbols) (side u) ∧ Apart cfg (known ++ baseSymbols) (side l)
  | .regexp re k _ => NameOk k ∧ ∀ g, cfg.xre re = some g → Good g ∧ Closed g

/-- The conditions under which a lexicon is compiled as it should be. -/
structure Clean (cfg : Config) (calls : List Call) (es : List Entry) (known : List Bytes) : Prop where
  lines : ∀ x ∈ calls, CallOk cfg known x
  /-- symbols are not empty, plain, and none continues the padding symbol -/
  plain : ∀ q ∈ known, q ≠ [] ∧ Plain q ∧ (lit "@@ANOTHER_EPSILON@@" <+: q → q = lit "@@ANOTHER_EPSILON@@")
  /-- no symbol that is written in an entry begins with `@_` or the padding symbol -/
  symbols : ∀ e ∈ es, ∀ x ∈ e.symbols,
    x = epsilon ∨ ¬ sym (lit "@_") <+: x ∧ ¬ sym (lit "@@ANOTHER_EPSILON@@") <+: x
  /-- every entry is in a lexicon and no lexicon is empty (as the grammar demands) -/
  inside : ∀ e ∈ es, e.lex ∈ lexiconNames calls
  filled : ∀ n ∈ lexiconNames calls, ∃ e ∈ es, e.lex = n
  some_lexicon : lexiconNames calls ≠ []

/-- Regular expressions of different lexicons or continuations have different keys, and those with the same key have the same
weight.  (The key is made of the two names with `_` between them.) -/
def KeysApart (es : List Entry) : Prop :=
  ∀ e ∈ es, ∀ e' ∈ es, e.regexp = true → e'.regexp = true →
    e.lex ++ lit "_" ++ e.cont = e'.lex ++ lit "_" ++ e'.cont → e.lex = e'.lex ∧ e.weight = e'.weight

/-- What the compiler makes of the entries: all regular expressions with the same key are put together, and every entry with
that key stands for all of them. -/
def collected (es : List Entry) : List Entry :=
  es.flatMap fun e =>
    if e.regexp then
      (es.filter fun e' => e'.regexp && decide (e'.lex ++ lit "_" ++ e'.cont = e.lex ++ lit "_" ++ e.cont)).map fun e' =>
        { e with lang := e'.lang }
    else [e]

end Hfst.Lexc
