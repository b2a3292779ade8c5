import Verif.Model.Reweight
import Verif.Spec.Path

/-!
# What hfst-reweight is for

Specification of property C93, from the help text of the tool (tools/src/hfst-reweight.cc:83-134).
-/
namespace Hfst.Reweight
open Hfst.StdString Hfst.Basic
open scoped Classical

/-- There is a path from `s` to `q` whose transitions have the symbols and weights `l`. -/
inductive Walk (g : Graph) : Nat → List (Sym × Sym × Int) → Nat → Prop
  | nil (s : Nat) : Walk g s [] s
  | cons {s q : Nat} {a : Arc} {l : List (Sym × Sym × Int)} :
      a ∈ g.arcs s → Walk g a.target l q → Walk g s ((a.inp, a.out, a.weight) :: l) q

/-- There is an accepting path whose transitions have the symbols and weights `l` and that ends with the final weight `f`. -/
def Takes (g : Graph) (l : List (Sym × Sym × Int)) (f : Int) : Prop := ∃ q, Walk g 0 l q ∧ g.final q = some f

/-- A transition with the symbols `i` and `u` and the weight `w` is to be changed. -/
def MatchesArc (o : Options) (i u : Sym) (w : Int) : Prop :=
  o.lower ≤ w ∧ w ≤ o.upper ∧ o.endsOnly = false ∧ (∀ x, o.input = some x → i = x) ∧ (∀ x, o.output = some x → u = x) ∧
    ∀ x, o.symbol = some x → i = x ∨ u = x

/-- A final weight `w` is to be changed ("weights are by default modified for all arcs and end states": the symbols asked for do not
matter here). -/
def MatchesEnd (o : Options) (w : Int) : Prop := o.lower ≤ w ∧ w ≤ o.upper ∧ o.arcsOnly = false

/-- The new weight of a transition: BVAL * FNAME(w) + AVAL, if it matches. -/
noncomputable def newArc (o : Options) (i u : Sym) (w : Int) : Int :=
  if MatchesArc o i u w then o.multiplier * o.func w + o.addition else w

/-- The new final weight. -/
noncomputable def newEnd (o : Options) (w : Int) : Int :=
  if MatchesEnd o w then o.multiplier * o.func w + o.addition else w

/-! ## Rules from a file -/

/-- A rule: a symbol and AVAL or BVAL. -/
inductive Rule
  | add (symbol : Sym) (aval : Int)
  | mul (symbol : Sym) (bval : Int)

/-- The line `l` says the rule: the symbol, a tab, and a number, which is AVAL if a plus precedes it and BVAL otherwise. -/
inductive Says (read : Str → Option Int) : Str → Rule → Prop
  | add {sym num : Str} {v : Int} : '\t' ∉ sym → read num = some v → Says read (sym ++ '\t' :: '+' :: num) (.add sym v)
  | mul {sym num : Str} {v : Int} : '\t' ∉ sym → (∀ rest, num ≠ '+' :: rest) → read num = some v →
      Says read (sym ++ '\t' :: num) (.mul sym v)

/-- Empty lines, and lines that begin with `#`. -/
def Ignored (l : Str) : Prop := l = [] ∨ ∃ rest, l = '#' :: rest

/-- The lines say the rules, one after the other. -/
inductive Reads (read : Str → Option Int) : List Str → List Rule → Prop
  | nil : Reads read [] []
  | ignored {l : Str} {ls : List Str} {rs : List Rule} : Ignored l → Reads read ls rs → Reads read (l :: ls) rs
  | rule {l : Str} {ls : List Str} {r : Rule} {rs : List Rule} : ¬ Ignored l → Says read l r → Reads read ls rs →
      Reads read (l :: ls) (r :: rs)

/-- The options with which one rule is to be applied: the value that is not given is neutral. -/
def Rule.options (o : Options) : Rule → Options
  | .add x v => { o with symbol := some x, addition := v, multiplier := 1 }
  | .mul x v => { o with symbol := some x, addition := 0, multiplier := v }

/-- The new weight of a transition after all rules. -/
noncomputable def rulesArc (o : Options) (rs : List Rule) (i u : Sym) (w : Int) : Int :=
  rs.foldl (fun w r => newArc (r.options o) i u w) w

/-- The new final weight after all rules. -/
noncomputable def rulesEnd (o : Options) (rs : List Rule) (w : Int) : Int := rs.foldl (fun w r => newEnd (r.options o) w) w

end Hfst.Reweight
