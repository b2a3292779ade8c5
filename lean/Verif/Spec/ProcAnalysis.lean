import Verif.Model.ProcAnalysis

/-!
# hfst-proc: how a text is divided into words

From where the last word ended, the lookup follows the tokens as far as it can.  The longest word with analyses that ends at a
boundary is printed, and the text goes on right behind it.
-/
namespace Hfst.Proc

/-- The state of the lookup after the first `k` tokens of `w`. -/
def after {τ φ : Type} (M : Machine τ φ) (w : List τ) (k : Nat) : M.σ := (w.take k).foldl M.step M.init

/-- The lookup follows exactly `n` tokens of `w`: it is active after each of them, and not after the next one. -/
def Follows {τ φ : Type} (M : Machine τ φ) (w : List τ) (n : Nat) : Prop :=
  n < w.length ∧ (∀ j, 1 ≤ j → j ≤ n → M.active (after M w j) = true) ∧ M.active (after M w (n + 1)) = false

/-- The first `k` tokens of `w` are a word of the transducer that ends at a boundary: the tokens on both sides of its end are not
both alphabetic. -/
def Ends {τ φ : Type} (M : Machine τ φ) (w : List τ) (k : Nat) : Prop :=
  M.final (after M w k) = true ∧
    ∃ (j : Nat) (a b : τ), k = j + 1 ∧ w[j]? = some a ∧ w[k]? = some b ∧ (M.alpha a = false ∨ M.alpha b = false)

/-- Among the first `n` tokens of `w`, the longest word ending at a boundary has `k` tokens. -/
def Longest {τ φ : Type} (M : Machine τ φ) (w : List τ) (n k : Nat) : Prop :=
  k ≤ n ∧ Ends M w k ∧ ∀ k', k' ≤ n → Ends M w k' → k' ≤ k

/-- The analyses of the first `k` tokens are not used if there are none, or if both the token behind them and the last token
followed are alphabetic. -/
def Unusable {τ φ : Type} (M : Machine τ φ) (w : List τ) (n k : Nat) : Prop :=
  M.forms (after M w k) (w.take k) = [] ∨
    ∃ (m : Nat) (b l : τ), n = m + 1 ∧ w[k]? = some b ∧ w[m]? = some l ∧ M.alpha b = true ∧ M.alpha l = true

/-- The text is divided in this way. -/
inductive Divides {τ φ : Type} (M : Machine τ φ) : List τ → List (Event τ φ) → Prop
  | done : Divides M [] []
  | blank {t : τ} {w : List τ} {es : List (Event τ φ)} : Follows M (t :: w) 0 → M.alpha t = false → Divides M w es →
      Divides M (t :: w) (.blank t :: es)
  | word {w : List τ} {n k : Nat} {es : List (Event τ φ)} : Follows M w n → Longest M w n k → ¬ Unusable M w n k →
      Divides M (w.drop k) es → Divides M w (.word (w.take k) (M.forms (after M w k) (w.take k)) :: es)
  | unknown {w : List τ} {n : Nat} {es : List (Event τ φ)} {u v : List τ} : Follows M w n →
      (n = 0 → ∃ t, w.head? = some t ∧ M.alpha t = true) → (∀ k, Longest M w n k → Unusable M w n k) →
      w = u ++ v → u = w.take n ++ (w.drop n).takeWhile M.alpha → Divides M v es → Divides M w (.unknown u :: es)

/-- The tokens that an event is given. -/
def Event.tokens {τ φ : Type} : Event τ φ → List τ
  | .blank t => [t]
  | .word s _ => s
  | .unknown s => s

/-- Without `keep`, the tokens between words are not printed. -/
def printed {τ φ : Type} (keep : Bool) (es : List (Event τ φ)) : List (Event τ φ) :=
  es.filter fun e => match e with
    | .blank _ => keep
    | _ => true

end Hfst.Proc
