import Verif.Model.ProcBuffer

/-!
# hfst-proc: what the circular buffer should do

A stream with random access: a position in the whole list of tokens.  Reading gives the token there and moves on by one, or gives
nothing at the end.  Going back moves the position.  Looking back gives a token before the position.  The distance is the number of
tokens since the noted position.
-/
namespace Hfst.Proc

/-- The results if the stream is just a position in the list of all tokens; `m` is the noted position. -/
def listRun {τ : Type} (whole : List τ) : List StreamOp → (p m : Nat) → List (StreamRes τ)
  | [], _, _ => []
  | .read :: ops, p, m => .token whole[p]? :: listRun whole ops (if p < whole.length then p + 1 else p) m
  | .back k :: ops, p, m => listRun whole ops (p - k) m
  | .look k :: ops, p, m => (whole[p - k]?.map .elem).toList ++ listRun whole ops p m
  | .note :: ops, p, _ => listRun whole ops p p
  | .diff :: ops, p, m => .count (p - m) :: listRun whole ops p m

/-- The calls stay within what a buffer of that size can do.  They never go back before the start of the stream, or before anything
has been read, and never get `size` or more tokens behind the furthest token read.  They look only at tokens that are still in
the buffer, and not across the end of the array.  The position is noted after something has been read, and a distance is asked for
only if it is not negative and below `size`.  `far` is how many tokens have been read so far; `m` is the noted position, if any. -/
def Within (size len : Nat) : List StreamOp → (p far : Nat) → (m : Option Nat) → Prop
  | [], _, _, _ => True
  | .read :: ops, p, far, m =>
    let p' := if p < len then p + 1 else p
    Within size len ops p' (max far p') m
  | .back k :: ops, p, far, m => 0 < far ∧ k ≤ p ∧ far < p - k + size ∧ Within size len ops (p - k) far m
  | .look k :: ops, p, far, m =>
    0 < k ∧ k ≤ p ∧ far + k ≤ p + size ∧ k ≤ (p - 1) % size + 1 ∧ Within size len ops p far m
  | .note :: ops, p, far, _ => 0 < far ∧ Within size len ops p far (some p)
  | .diff :: ops, p, far, m => (∃ q, m = some q ∧ q ≤ p ∧ p < q + size) ∧ Within size len ops p far m

end Hfst.Proc
