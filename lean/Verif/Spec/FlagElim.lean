import Verif.Spec.Transducer

/-!
# What flag diacritics ask for

Specification of property C80.
-/
namespace Hfst.Trans
open Hfst.Basic

/-- What a feature is set to. -/
inductive Held
  | nothing
  | value (v : Sym)
  | not (v : Sym)
  deriving DecidableEq

/-- The operator, the feature and the value of a flag diacritic.  The value is empty if there is none.  (That the functions that
read the parts are right is property C01.) -/
def readFlag (x : Sym) : Option (Char × Sym × Sym) :=
  if Flags.isDiacritic x then
    match Flags.getOperator x, Flags.getFeature x, Flags.getValue x with
    | some [o], some f, some v => some (o, f, v)
    | _, _, _ => none
  else none

/-- Whether a flag with the operator `o` and the value `v` lets through, if its feature is set to `h`. -/
def Lets (h : Held) (o : Char) (v : Sym) : Prop :=
  if o = 'R' then (if v = [] then h ≠ .nothing else h = .value v)
  else if o = 'D' then (if v = [] then h = .nothing else h ≠ .value v)
  else if o = 'U' then h = .nothing ∨ h = .value v ∨ ∃ w, w ≠ v ∧ h = .not w
  else True

/-- What the feature of a flag with the operator `o` and the value `v` is set to afterwards. -/
def Held.next (h : Held) (o : Char) (v : Sym) : Held :=
  if o = 'P' ∨ o = 'U' then .value v
  else if o = 'N' then .not v
  else if o = 'C' then .nothing
  else h

/-- All flags in the string let through, if the features are set to `F` at the beginning. -/
def ObeysFrom (F : Sym → Held) : List Sym → Prop
  | [] => True
  | x :: s =>
    match readFlag x with
    | none => ObeysFrom F s
    | some (o, f, v) => Lets (F f) o v ∧ ObeysFrom (fun f' => if f' = f then (F f).next o v else F f') s

/-- All flags in the string let through. -/
def Obeys (s : List Sym) : Prop := ObeysFrom (fun _ => .nothing) s

/-- Flags are on both sides of a pair, or on none. -/
def FlagPairs (g : Graph) : Prop :=
  ∀ l w, Means g l w → ∀ p ∈ l, (Flags.isDiacritic p.1 = true ∨ Flags.isDiacritic p.2 = true) → p.1 = p.2

/-- The sequence without the pairs of flags. -/
def withoutFlags (l : List (Sym × Sym)) : List (Sym × Sym) := l.filter fun p => !Flags.isDiacritic p.1

/-- The flags of the transducer. -/
def HasFlag (g : Graph) (x : Sym) (o : Char) (f v : Sym) : Prop := x ∈ g.alphabet ∧ readFlag x = some (o, f, v)

/-- Whether the flag `x` lets through may depend on the flag `y` before it, in a way that the filters know about: `x` is a `U`, `R`
or `D` flag, `y` a `P`, `U`, `N` or `C` flag with the same feature, and `y` is neither a `U` flag with the value of the `U` flag `x`,
nor a `U` flag with a value other than that of the `D` flag `x`, nor an `N` flag with a value other than that of the `U` flag `x`. -/
def Decides (g : Graph) (x y : Sym) : Prop :=
  ∃ o f v o' v', HasFlag g x o f v ∧ HasFlag g y o' f v' ∧ (o = 'U' ∨ o = 'R' ∨ o = 'D') ∧
    (o' = 'P' ∨ o' = 'U' ∨ o' = 'N' ∨ o' = 'C') ∧ ¬ (o = 'U' ∧ o' = 'U' ∧ v = v') ∧ ¬ (o = 'D' ∧ v ≠ [] ∧ o' = 'U' ∧ v ≠ v') ∧
    ¬ (o = 'U' ∧ o' = 'N' ∧ v ≠ v')

/-- The features that an `R` flag asks for are set by some flag. -/
def RequiredSet (g : Graph) : Prop := ∀ x f v, HasFlag g x 'R' f v → ∃ y, Decides g x y

/-- No `N` flag has a value other than that of a `U` flag or a `D` flag with a value, for the same feature. -/
def NegativeAgrees (g : Graph) : Prop :=
  ∀ x y o f v v', HasFlag g x o f v → HasFlag g y 'N' f v' → (o = 'U' ∨ o = 'D' ∧ v ≠ []) → v = v'

/-- Either no flag decides about another, or every flag decides or is decided about. -/
def AllOrNone (g : Graph) : Prop :=
  (∀ x y, ¬ Decides g x y) ∨ ∀ z o f v, HasFlag g z o f v → ∃ x y, Decides g x y ∧ (z = x ∨ z = y)

end Hfst.Trans
