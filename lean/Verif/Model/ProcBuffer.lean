import Verif.Model.Graph

/-!
# hfst-proc: the circular buffer of tokens

Model of the class template `Buffer` (tools/src/hfst-proc/buffer.h) and of the part of `TokenIOStream` that reads
tokens through it (tools/src/hfst-proc/tokenizer.cc, tokenizer.h).

* Positions are natural numbers.  Where the code would subtract below zero (and wrap around to a huge `size_t`), the outcome is
  `undefined`, as the next access is outside the array.
* The array is a function from indices; the theorems only read below `size`.
-/
namespace Hfst.Proc
open Hfst.Basic

/-- The members of `Buffer` (tools/src/hfst-proc/buffer.h:32-51). -/
structure Ring (τ : Type) where
  size : Nat
  buf : Nat → τ
  cur : Nat
  last : Nat

/-- The number of elements of the buffer of tokens (tools/src/hfst-proc/tokenizer.cc:25). -/
def bufferSize : Nat := 1024

/-- The constructor (tools/src/hfst-proc/buffer.h:74-83) for a size that is not 0; `d` is what the constructor of the elements
gives. -/
def Ring.make {τ : Type} (size : Nat) (d : τ) : Ring τ := ⟨size, fun _ => d, 0, 0⟩

/-- `Buffer::add(value)` (tools/src/hfst-proc/buffer.h:119-128). -/
def Ring.add {τ : Type} (r : Ring τ) (v : τ) : Ring τ :=
  let l := if r.last = r.size then 0 else r.last
  ⟨r.size, fun i => if i = l then v else r.buf i, l + 1, l + 1⟩

/-- `Buffer::last` (tools/src/hfst-proc/buffer.h:171-181). -/
def Ring.lastElem {τ : Type} (r : Ring τ) : τ := if r.last ≠ 0 then r.buf (r.last - 1) else r.buf (r.size - 1)

/-- `Buffer::next` (tools/src/hfst-proc/buffer.h:151-165). -/
def Ring.next {τ : Type} (r : Ring τ) : τ × Ring τ :=
  if r.cur ≠ r.last then
    let c := if r.cur = r.size then 0 else r.cur
    (r.buf c, { r with cur := c + 1 })
  else (r.lastElem, r)

/-- `Buffer::get(pos - k)` (tools/src/hfst-proc/buffer.h:188-191), where `pos` is the current position. -/
def Ring.before {τ : Type} (r : Ring τ) (k : Nat) : Outcome τ :=
  if r.cur < k then .undefined else .ok (r.buf (r.cur - k))

/-- `Buffer::diffPrevPos` (tools/src/hfst-proc/buffer.h:217-227). -/
def Ring.diffPrev {τ : Type} (r : Ring τ) (p : Nat) : Nat := if p ≤ r.cur then r.cur - p else r.cur + r.size - p

/-- `Buffer::isEmpty` (tools/src/hfst-proc/buffer.h:251-254). -/
def Ring.isEmpty {τ : Type} (r : Ring τ) : Bool := decide (r.cur = r.last)

/-- `Buffer::back` (tools/src/hfst-proc/buffer.h:260-270). -/
def Ring.back {τ : Type} (r : Ring τ) (k : Nat) : Outcome (Ring τ) :=
  if k < r.cur then .ok { r with cur := r.cur - k }
  else if r.size < k - r.cur then .undefined
  else .ok { r with cur := r.size - (k - r.cur) }

/-- The members of `TokenIOStream` that matter here (tools/src/hfst-proc/tokenizer.h:180-194): the buffer, and the tokens that
`read_token` is still going to return before the end of the input. -/
structure Src (τ : Type) where
  ring : Ring τ
  rest : List τ

/-- `TokenIOStream::get_token` (tools/src/hfst-proc/tokenizer.cc:370-380); `none` is the token of type `None`. -/
def Src.getToken {τ : Type} (s : Src τ) : Option τ × Src τ :=
  if s.ring.isEmpty = false then (some s.ring.next.1, ⟨s.ring.next.2, s.rest⟩)
  else match s.rest with
    | [] => (none, s)
    | t :: rest => (some t, ⟨s.ring.add t, rest⟩)

/-- `TokenIOStream::move_back` (tools/src/hfst-proc/tokenizer.h:246-250). -/
def Src.moveBack {τ : Type} (s : Src τ) (k : Nat) : Outcome (Src τ) := (s.ring.back k).bind fun r => .ok ⟨r, s.rest⟩

/-- What a program does with the stream: read a token (tools/src/hfst-proc/tokenizer.cc:370-380), go back
(tools/src/hfst-proc/tokenizer.h:246-250), look at the token `k` places before the position (tokenizer.h:241-245), note the
position (tokenizer.h:231-235), ask how far the noted position is behind (tokenizer.h:236-240). -/
inductive StreamOp
  | read
  | back (k : Nat)
  | look (k : Nat)
  | note
  | diff

/-- What these calls return. -/
inductive StreamRes (τ : Type)
  | token (t : Option τ)
  | elem (t : τ)
  | count (n : Nat)
  deriving DecidableEq

/-- A sequence of such calls (as in tools/src/hfst-proc/applicators.cc:95, 125, 127, 143, 171, 184, 188, 195, 219, 227, 232), with
their results.  The second argument is the noted position. -/
def Src.run {τ : Type} : List StreamOp → Nat → Src τ → Outcome (List (StreamRes τ))
  | [], _, _ => .ok []
  | .read :: ops, m, s => (Src.run ops m s.getToken.2).bind fun l => .ok (.token s.getToken.1 :: l)
  | .back k :: ops, m, s => (s.moveBack k).bind fun s => Src.run ops m s
  | .look k :: ops, m, s => (s.ring.before k).bind fun t => (Src.run ops m s).bind fun l => .ok (.elem t :: l)
  | .note :: ops, _, s => Src.run ops s.ring.cur s
  | .diff :: ops, m, s => (Src.run ops m s).bind fun l => .ok (.count (s.ring.diffPrev m) :: l)

end Hfst.Proc
