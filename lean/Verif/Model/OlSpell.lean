import Verif.Model.OlLookup

/-!
# Optimized lookup: the spell checker

Model of `Speller` and `InputString` (libhfst/src/implementations/optimized-lookup/ospell.cc) and of the functions of `Transducer` that
they use (libhfst/src/implementations/optimized-lookup/transducer.cc:966-1037).

* The loops over the queue and over the input have a counter; if it runs out, the outcome is `undefined`.
* Weights are integers.
-/
namespace Hfst.Ol
open Hfst.Basic

/-! ## Functions of the transducer -/

/-- `STransition` (libhfst/src/implementations/optimized-lookup/transducer.h:1085-1107). -/
structure Taken where
  index : Nat
  symbol : Nat
  weight : Int
  deriving DecidableEq

/-- `Transducer::next` (libhfst/src/implementations/optimized-lookup/transducer.cc:966-974). -/
def Machine.next (M : Machine) (i x : Nat) : Outcome Nat :=
  if targetStart ≤ i then .ok (i - targetStart + 1)
  else match tableGet M.indices (i + 1 + x) with
    | none => .undefined
    | some e => .ok (e.target - targetStart)

/-- `Transducer::has_transitions` (libhfst/src/implementations/optimized-lookup/transducer.cc:976-984). -/
def Machine.hasTransitions (M : Machine) (i x : Nat) : Outcome Bool :=
  if targetStart ≤ i then match tableGet M.transitions (i - targetStart) with
    | none => .undefined
    | some t => .ok (decide (t.input = x))
  else match tableGet M.indices (i + x) with
    | none => .undefined
    | some e => .ok (decide (e.input = x))

/-- `Transducer::is_flag` (libhfst/src/implementations/optimized-lookup/transducer.h:1076-1077). -/
def Machine.isFlag (M : Machine) (x : Nat) : Bool := (M.fd.getOperation x).isSome

/-- `Transducer::has_epsilons_or_flags` (libhfst/src/implementations/optimized-lookup/transducer.cc:986-996). -/
def Machine.hasFree (M : Machine) (i : Nat) : Outcome Bool :=
  if targetStart ≤ i then match tableGet M.transitions (i - targetStart) with
    | none => .undefined
    | some t => .ok (decide (t.input = 0) || M.isFlag t.input)
  else match tableGet M.indices i with
    | none => .undefined
    | some e => .ok (decide (e.input = 0))

/-- `Transducer::take_epsilons` (libhfst/src/implementations/optimized-lookup/transducer.cc:998-1006). -/
def Machine.takeEpsilons (M : Machine) (i : Nat) : Outcome Taken := match tableGet M.transitions i with
  | none => .undefined
  | some t => if t.input ≠ 0 then .ok ⟨0, noSymbol, 0⟩ else .ok ⟨t.target, t.output, M.transWeight t⟩

/-- `Transducer::take_epsilons_and_flags` (libhfst/src/implementations/optimized-lookup/transducer.cc:1008-1017). -/
def Machine.takeFree (M : Machine) (i : Nat) : Outcome Taken := match tableGet M.transitions i with
  | none => .undefined
  | some t => if t.input ≠ 0 ∧ M.isFlag t.input = false then .ok ⟨0, noSymbol, 0⟩ else .ok ⟨t.target, t.output, M.transWeight t⟩

/-- `Transducer::take_non_epsilons` (libhfst/src/implementations/optimized-lookup/transducer.cc:1019-1028). -/
def Machine.takeSymbol (M : Machine) (i x : Nat) : Outcome Taken := match tableGet M.transitions i with
  | none => .undefined
  | some t => if t.input ≠ x then .ok ⟨0, noSymbol, 0⟩ else .ok ⟨t.target, t.output, M.transWeight t⟩

/-- `Transducer::final_index` (libhfst/src/implementations/optimized-lookup/transducer.h:1011-1018). -/
def Machine.finalIndex (M : Machine) (i : Nat) : Outcome Bool :=
  if targetStart ≤ i then match tableGet M.transitions i with
    | none => .undefined
    | some t => .ok t.final
  else match tableGet M.indices i with
    | none => .undefined
    | some e => .ok e.final

/-- `Transducer::final_weight` (libhfst/src/implementations/optimized-lookup/transducer.cc:1030-1037). -/
def Machine.finalWeight (M : Machine) (i : Nat) : Outcome Int :=
  if targetStart ≤ i then match tableGet M.transitions (i - targetStart) with
    | none => .undefined
    | some t => .ok (M.transWeight t)
  else match tableGet M.indices i with
    | none => .undefined
    | some e => .ok (M.indexWeight e)

/-! ## The input -/

/-- `InputString::initialize` (libhfst/src/implementations/optimized-lookup/ospell.cc:30-68): `none` if the tokenization failed.  If the last
character is cut off, the loop goes on behind the terminating NUL. -/
def spellInput : Nat → Bytes → Encoder → Nat → Outcome (Option (List Nat))
  | 0, _, _, _ => .undefined
  | _ + 1, [], _, _ => .ok (some [])
  | fuel + 1, c :: rest, e, other =>
    (e.find (c :: rest)).bind fun r =>
      if r.1 = noSymbol then
        if Utf8.nByteUtf8 c = 0 then .ok none
        else if other = noSymbol then .ok none
        else if (c :: rest).length < Utf8.nByteUtf8 c then .undefined
        else (spellInput fuel ((c :: rest).drop (Utf8.nByteUtf8 c)) e other).bind fun q => .ok (q.map fun ks => other :: ks)
      else if (c :: rest).length < r.2 then .undefined
      else (spellInput fuel ((c :: rest).drop r.2) e other).bind fun q => .ok (q.map fun ks => r.1 :: ks)

/-! ## The speller -/

/-- `TreeNode` (libhfst/src/implementations/optimized-lookup/transducer.h:1221-1252). -/
structure SpellNode where
  string : List Nat
  input : Nat
  mutator : Nat
  lexicon : Nat
  flags : Flags.FdState
  weight : Int

/-- `TreeNode::update` and its variants `update_lexicon` and `update_mutator`
(libhfst/src/implementations/optimized-lookup/ospell.cc:70-127); what a variant does not change is given as it is. -/
def SpellNode.update (n : SpellNode) (symbol input mutator lexicon : Nat) (weight : Int) : SpellNode :=
  ⟨n.string ++ [symbol], input, mutator, lexicon, n.flags, n.weight + weight⟩

/-- The start node (libhfst/src/implementations/optimized-lookup/transducer.h:1245-1252). -/
def SpellNode.start (flags : Flags.FdState) : SpellNode := ⟨[], 0, 0, 0, flags, 0⟩

/-- The members of `Speller` (libhfst/src/implementations/optimized-lookup/transducer.h:1319-1341). -/
structure Speller where
  mutator : Machine
  lexicon : Machine
  translator : List Nat

/-- `build_string_symbol_map` followed by looking up a string (libhfst/src/implementations/optimized-lookup/transducer.cc:106-113): the number
of the last symbol with this string, or none. -/
def lastNumber (table : List Bytes) (s : Bytes) : Option Nat :=
  ((List.range table.length).filter fun i => table[i]? == some s).getLast?

/-- The loop of `Speller::build_alphabet_translator` (libhfst/src/implementations/optimized-lookup/ospell.cc:378-395), from symbol `i` on.  An
empty name that the lexicon does not have is given the number 0 by `operator[]`. -/
def translateFrom (M : Machine) (to : List Bytes) : List Bytes → Nat → Outcome (List Nat)
  | [], _ => .ok []
  | x :: xs, i =>
    if M.isFlag i = true ∨ i = M.alphabet.unknown then (translateFrom M to xs (i + 1)).bind fun l => .ok (noSymbol :: l)
    else match lastNumber to x with
      | some k => (translateFrom M to xs (i + 1)).bind fun l => .ok (k :: l)
      | none => if x ≠ [] then .throws else (translateFrom M to xs (i + 1)).bind fun l => .ok (0 :: l)

/-- The constructor of `Speller` with `build_alphabet_translator` (libhfst/src/implementations/optimized-lookup/transducer.h:1330-1341,
libhfst/src/implementations/optimized-lookup/ospell.cc:371-396). -/
def Speller.make (mutator lexicon : Machine) : Outcome Speller :=
  (translateFrom mutator lexicon.alphabet.table (mutator.alphabet.table.drop 1) 1).bind fun l => .ok ⟨mutator, lexicon, 0 :: l⟩

/-- The loops over transitions, as in libhfst/src/implementations/optimized-lookup/ospell.cc:135-153: `take` gives what is at a place of the
transition table, `body` adds to the queue, until `take` gives no symbol. -/
def takeLoop (take : Nat → Outcome Taken) (body : Nat → Taken → List SpellNode → Outcome (List SpellNode)) :
    Nat → Nat → List SpellNode → Outcome (List SpellNode)
  | 0, _, _ => .undefined
  | n + 1, i, queue => (take i).bind fun t =>
    if t.symbol = noSymbol then .ok queue else (body i t queue).bind fun queue => takeLoop take body n (i + 1) queue

/-- What `lexicon_epsilons` does with a transition (libhfst/src/implementations/optimized-lookup/ospell.cc:138-150). -/
def Speller.lexiconFree (S : Speller) (front : SpellNode) (i : Nat) (t : Taken) (queue : List SpellNode) : Outcome (List SpellNode) :=
  match tableGet S.lexicon.transitions i with
  | none => .undefined
  | some e =>
    if e.input = 0 then .ok (queue ++ [front.update t.symbol front.input front.mutator t.index t.weight])
    else match front.flags.applySymbol S.lexicon.fd e.input with
      | none => .undefined
      | some (true, fs) => .ok (queue ++ [{ front with flags := fs }.update t.symbol front.input front.mutator t.index t.weight])
      | some (false, _) => .ok queue

/-- `Speller::lexicon_epsilons` (libhfst/src/implementations/optimized-lookup/ospell.cc:129-154): what is appended to the queue whose first
element is `front`. -/
def Speller.lexiconEpsilons (S : Speller) (front : SpellNode) (queue : List SpellNode) : Outcome (List SpellNode) :=
  (S.lexicon.hasFree (front.lexicon + 1)).bind fun b =>
    if b = false then .ok queue
    else (S.lexicon.next front.lexicon 0).bind fun i =>
      takeLoop S.lexicon.takeFree (S.lexiconFree front) (S.lexicon.transitions.length + 1) i queue

/-- `Speller::lexicon_consume` (libhfst/src/implementations/optimized-lookup/ospell.cc:156-182); `input` are the numbers of the input. -/
def Speller.lexiconConsume (S : Speller) (input : List Nat) (front : SpellNode) (queue : List SpellNode) : Outcome (List SpellNode) :=
  match input[front.input]? with
  | none => .ok queue
  | some x => (S.lexicon.hasTransitions (front.lexicon + 1) x).bind fun b =>
    if b = false then .ok queue
    else (S.lexicon.next front.lexicon x).bind fun i =>
      takeLoop (fun i => S.lexicon.takeSymbol i x)
        (fun _ t queue => .ok (queue ++ [front.update t.symbol (front.input + 1) front.mutator t.index t.weight]))
        (S.lexicon.transitions.length + 1) i queue

/-- What `mutator_epsilons` and `consume_input` do with a transition of the error model that writes a symbol
(libhfst/src/implementations/optimized-lookup/ospell.cc:201-222, 256-281): the lexicon has to read the symbol. -/
def Speller.follow (S : Speller) (front : SpellNode) (input : Nat) (t : Taken) (queue : List SpellNode) : Outcome (List SpellNode) :=
  match S.translator[t.symbol]? with
  | none => .undefined
  | some y => (S.lexicon.hasTransitions (front.lexicon + 1) y).bind fun b =>
    if b = false then .ok queue
    else (S.lexicon.next front.lexicon y).bind fun i =>
      takeLoop (fun i => S.lexicon.takeSymbol i y)
        (fun _ u queue => .ok (queue ++ [front.update u.symbol input t.index u.index (u.weight + t.weight)]))
        (S.lexicon.transitions.length + 1) i queue

/-- `Speller::mutator_epsilons` (libhfst/src/implementations/optimized-lookup/ospell.cc:184-227). -/
def Speller.mutatorEpsilons (S : Speller) (front : SpellNode) (queue : List SpellNode) : Outcome (List SpellNode) :=
  (S.mutator.hasTransitions (front.mutator + 1) 0).bind fun b =>
    if b = false then .ok queue
    else (S.mutator.next front.mutator 0).bind fun i =>
      takeLoop S.mutator.takeEpsilons
        (fun _ t queue =>
          if t.symbol = 0 then .ok (queue ++ [front.update t.symbol front.input t.index front.lexicon t.weight])
          else S.follow front front.input t queue)
        (S.mutator.transitions.length + 1) i queue

/-- `Speller::consume_input` (libhfst/src/implementations/optimized-lookup/ospell.cc:229-287). -/
def Speller.consumeInput (S : Speller) (input : List Nat) (front : SpellNode) (queue : List SpellNode) : Outcome (List SpellNode) :=
  match input[front.input]? with
  | none => .ok queue
  | some x => (S.mutator.hasTransitions (front.mutator + 1) x).bind fun b =>
    if b = false then .ok queue
    else (S.mutator.next front.mutator x).bind fun i =>
      takeLoop (fun i => S.mutator.takeSymbol i x)
        (fun _ t queue =>
          if t.symbol = 0 then .ok (queue ++ [front.update 0 (front.input + 1) t.index front.lexicon t.weight])
          else S.follow front (front.input + 1) t queue)
        (S.mutator.transitions.length + 1) i queue

/-- `Speller::stringify` (libhfst/src/implementations/optimized-lookup/ospell.cc:354-362), with the symbol table of the lexicon
(libhfst/src/implementations/optimized-lookup/transducer.h:1337). -/
def Speller.stringify (S : Speller) : List Nat → Outcome Bytes
  | [] => .ok []
  | x :: xs => match S.lexicon.alphabet.table[x]? with
    | none => .undefined
    | some s => (S.stringify xs).bind fun r => .ok (s ++ r)

/-- The loop of `Speller::check` (libhfst/src/implementations/optimized-lookup/ospell.cc:342-350). -/
def Speller.checkLoop (S : Speller) (input : List Nat) : Nat → List SpellNode → Outcome Bool
  | _, [] => .ok false
  | 0, _ :: _ => .undefined
  | fuel + 1, front :: queue =>
    (if front.input = input.length then S.lexicon.finalIndex front.lexicon else .ok false).bind fun b =>
      if b = true then .ok true
      else (S.lexiconEpsilons front queue).bind fun queue =>
        (S.lexiconConsume input front queue).bind fun queue => S.checkLoop input fuel queue

/-- `Speller::check` (libhfst/src/implementations/optimized-lookup/ospell.cc:334-352) after the input was read. -/
def Speller.checkNumbers (S : Speller) (fuel : Nat) (input : List Nat) : Outcome Bool :=
  S.checkLoop input fuel [.start (.init S.lexicon.fd.numFeatures)]

/-- `Speller::check` (libhfst/src/implementations/optimized-lookup/ospell.cc:334-352); `e` is the encoder of the lexicon. -/
def Speller.check (S : Speller) (fuel : Nat) (e : Encoder) (s : Bytes) : Outcome Bool :=
  (spellInput fuel s e noSymbol).bind fun q => match q with
    | none => .ok false
    | some input => S.checkNumbers fuel input

/-- The node is a correction (libhfst/src/implementations/optimized-lookup/ospell.cc:305-323): it is added to the map if its string is new or
its weight is smaller. -/
def Speller.note (S : Speller) (front : SpellNode) (m : List (Bytes × Int)) : Outcome (List (Bytes × Int)) :=
  (S.mutator.finalIndex front.mutator).bind fun a =>
    if a = false then .ok m
    else (S.lexicon.finalIndex front.lexicon).bind fun b =>
      if b = false then .ok m
      else (S.stringify front.string).bind fun s =>
        (S.lexicon.finalWeight front.lexicon).bind fun u =>
          (S.mutator.finalWeight front.mutator).bind fun v =>
            let w := front.weight + u + v
            match mapGet m s with
            | none => .ok (mapPut m s w)
            | some w' => if w < w' then .ok (mapPut m s w) else .ok m

/-- The loop of `Speller::correct` (libhfst/src/implementations/optimized-lookup/ospell.cc:301-326). -/
def Speller.correctLoop (S : Speller) (input : List Nat) : Nat → List SpellNode → List (Bytes × Int) → Outcome (List (Bytes × Int))
  | _, [], m => .ok m
  | 0, _ :: _, _ => .undefined
  | fuel + 1, front :: queue, m =>
    (S.lexiconEpsilons front queue).bind fun queue =>
      (S.mutatorEpsilons front queue).bind fun queue =>
        if front.input = input.length then (S.note front m).bind fun m => S.correctLoop input fuel queue m
        else (S.consumeInput input front queue).bind fun queue => S.correctLoop input fuel queue m

/-- `Speller::correct` (libhfst/src/implementations/optimized-lookup/ospell.cc:290-332) after the input was read: what is put into the
priority queue. -/
def Speller.correctNumbers (S : Speller) (fuel : Nat) (input : List Nat) : Outcome (List (Bytes × Int)) :=
  S.correctLoop input fuel [.start (.init S.lexicon.fd.numFeatures)] []

/-- `Speller::correct` (libhfst/src/implementations/optimized-lookup/ospell.cc:290-332); `e` is the encoder of the error model. -/
def Speller.correct (S : Speller) (fuel : Nat) (e : Encoder) (s : Bytes) : Outcome (List (Bytes × Int)) :=
  (spellInput fuel s e S.mutator.alphabet.unknown).bind fun q => match q with
    | none => .ok []
    | some input => S.correctNumbers fuel input

/-- `StringWeightComparison` (libhfst/src/implementations/optimized-lookup/transducer.h:1121-1128): the first pair comes after the second. -/
def laterCorrection (a b : Bytes × Int) : Bool := decide (b.2 < a.2)

end Hfst.Ol
