import Verif.Model.ProcBuffer

/-!
# hfst-proc: the loop that finds the words in a text

Model of `AnalysisApplicator::apply` (tools/src/hfst-proc/applicators.cc:86-248).

* The tokens, the lookup in the transducer (`LookupState`) and the formatter are parameters: `Machine`.
* The output is the list of the calls that print, with the tokens they are given; debugging output is left out.
* One round of the loop is one call of `round`; `analyse n` is `n` rounds and returns `none` if the loop is still running.
-/
namespace Hfst.Proc
open Hfst.Basic

/-- What the loop uses (tools/src/hfst-proc/lookup-state.h, tokenizer.h, formatter.h): the lookup state and its `step`,
`is_active`, `is_final`; `forms` is `process_finals` of the finals, given the tokens of the surface form for their capitalization;
`alpha` is `is_alphabetic`; `reserved` tells the tokens of type `ReservedCharacter`; `keep` is `preserve_nonalphabetic`. -/
structure Machine (τ φ : Type) where
  σ : Type
  init : σ
  step : σ → τ → σ
  active : σ → Bool
  final : σ → Bool
  forms : σ → List τ → List φ
  alpha : τ → Bool
  reserved : τ → Bool
  keep : Bool

/-- The calls that print: `token_stream << token`, `print_word` and `print_unknown_word`
(tools/src/hfst-proc/applicators.cc:167, 194, 216, 228, 247). -/
inductive Event (τ φ : Type)
  | blank (t : τ)
  | word (surface : List τ) (forms : List φ)
  | unknown (surface : List τ)
  deriving DecidableEq

/-- The local variables (tools/src/hfst-proc/applicators.cc:89-94), the stream and what has been printed. -/
structure Conf {τ φ : Type} (M : Machine τ φ) where
  src : Src τ
  st : M.σ
  surf : List τ
  forms : List φ
  loc : Nat
  out : List (Event τ φ)

/-- The inner loop (tools/src/hfst-proc/applicators.cc:181-186) from the read on: the stream and the surface form afterwards.  The
first argument is the number of rounds still allowed. -/
def wordRest {τ : Type} (alpha : τ → Bool) : Nat → Src τ → List τ → Src τ × List τ
  | 0, s, surf => (s, surf)
  | n + 1, s, surf => match s.getToken with
    | (none, s) => (s, surf)
    | (some t, s) => if alpha t then wordRest alpha n s (surf ++ [t]) else (s, surf)

/-- `if (formatter.preserve_nonalphabetic()) token_stream << t` (tools/src/hfst-proc/applicators.cc:166-167, 193-194). -/
def blankOut {τ φ : Type} (M : Machine τ φ) (t : τ) : List (Event τ φ) := if M.keep then [.blank t] else []

/-- Whether the place between the last token and the one before it may be the end of a word
(tools/src/hfst-proc/applicators.cc:124-127). -/
def boundary {τ φ : Type} (M : Machine τ φ) (r : Ring τ) : Outcome Bool :=
  (r.before 2).bind fun a => if M.alpha a = false then .ok true else (r.before 1).bind fun b => .ok !(M.alpha b)

/-- Noting the analyses found so far (tools/src/hfst-proc/applicators.cc:123-149). -/
def record {τ φ : Type} {M : Machine τ φ} (c : Conf M) : Outcome (Conf M) :=
  if c.surf ≠ [] ∧ M.final c.st = true then
    (boundary M c.src.ring).bind fun b =>
      if b then .ok { c with forms := M.forms c.st c.surf, loc := c.src.ring.cur - 1 } else .ok c
  else .ok c

/-- `state.reset()` and clearing the variables (tools/src/hfst-proc/applicators.cc:235-237). -/
def Conf.reset {τ φ : Type} {M : Machine τ φ} (c : Conf M) (src : Src τ) (es : List (Event τ φ)) : Conf M :=
  { c with src := src, st := M.init, surf := [], forms := [], out := c.out ++ es }

/-- The branch for unknown words (tools/src/hfst-proc/applicators.cc:175-221). -/
def unknownWord {τ φ : Type} {M : Machine τ φ} (c : Conf M) (t : τ) : Outcome (Conf M) :=
  let more := if M.alpha t then wordRest M.alpha (c.src.ring.size + c.src.rest.length + 1) c.src (c.surf ++ [t])
    else (c.src, c.surf)
  (if M.alpha t then more.1.moveBack 1 else .ok more.1).bind fun src =>
    match more.2 with
    | [] => .undefined
    | f :: fs =>
      if M.alpha f = false then (src.moveBack ((f :: fs).length - 1)).bind fun src => .ok (c.reset src (blankOut M f))
      else (src.moveBack (if M.alpha t then 0 else 1)).bind fun src => .ok (c.reset src [.unknown (f :: fs)])

/-- The branch for words with analyses (tools/src/hfst-proc/applicators.cc:222-233). -/
def knownWord {τ φ : Type} {M : Machine τ φ} (c : Conf M) : Outcome (Conf M) :=
  let revert := c.src.ring.diffPrev (c.loc + 1)
  if c.surf.length < revert then .undefined
  else (c.src.moveBack (revert + 1)).bind fun src =>
    .ok (c.reset src [.word (c.surf.take (c.surf.length - revert)) c.forms])

/-- What is done with a token on which the lookup comes to an end (tools/src/hfst-proc/applicators.cc:163-237). -/
def ended {τ φ : Type} {M : Machine τ φ} (c : Conf M) (t : τ) : Outcome (Conf M) :=
  if c.surf = [] ∧ M.alpha t = false then .ok (c.reset c.src (blankOut M t))
  else if c.forms = [] then unknownWord c t
  else match c.surf.getLast? with
    | none => .undefined
    | some l => if M.alpha (c.src.ring.buf c.loc) = true ∧ M.alpha l = true then unknownWord c t else knownWord c

/-- One round of the loop (tools/src/hfst-proc/applicators.cc:95-239) or, at the end of the input, what follows it
(tools/src/hfst-proc/applicators.cc:244-247). -/
def round {τ φ : Type} {M : Machine τ φ} (c : Conf M) : Outcome (Conf M ⊕ List (Event τ φ)) :=
  match c.src.getToken with
  | (none, _) => .ok (.inr (if c.forms ≠ [] then c.out ++ [.word c.surf c.forms] else c.out))
  | (some t, src) =>
    if M.reserved t then .throws
    else (record { c with src := src }).bind fun c =>
      let st := M.step c.st t
      if M.active st then .ok (.inl { c with st := st, surf := c.surf ++ [t] })
      else (ended { c with st := st } t).bind fun c => .ok (.inl c)

/-- `n` rounds of the loop (tools/src/hfst-proc/applicators.cc:95-248): `none` if it is still running. -/
def analyse {τ φ : Type} {M : Machine τ φ} : Nat → Conf M → Outcome (Option (List (Event τ φ)))
  | 0, _ => .ok none
  | n + 1, c => (round c).bind fun r => match r with
    | .inl c => analyse n c
    | .inr out => .ok (some out)

/-- The start of the loop (tools/src/hfst-proc/applicators.cc:89-94), on a fresh stream (tools/src/hfst-proc/tokenizer.cc:21-25). -/
def Conf.start {τ φ : Type} (M : Machine τ φ) (size : Nat) (d : τ) (input : List τ) : Conf M :=
  ⟨⟨Ring.make size d, input⟩, M.init, [], [], 0, []⟩

end Hfst.Proc
