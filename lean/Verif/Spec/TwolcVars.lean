import Verif.Model.TwolcVars
import Mathlib.Data.List.Forall2
import Mathlib.Data.List.Nodup

/-!
# What the variables of a rule mean

A choice gives a position in its list of values to each variable of each block, block after block in the order of the text.  Only the types
for the text of a rule are taken from the model.
-/
namespace Hfst.Twolc

/-- A block of variables: how they belong together, and each variable with its values. -/
abbrev MeantBlock := Matcher × List (Str × List Str)

/-- The values a list in the text stands for: the name of a set stands for its elements. -/
def meantValues (sets : List (Str × List Str)) (l : List Str) : List Str :=
  l.flatMap fun s => (Hfst.Basic.mapGet sets s).getD [s]

/-- The blocks in the text of a rule. -/
def meantBlocks (sets : List (Str × List Str)) (r : RuleText) : List MeantBlock :=
  r.blocks.map fun b => (b.1, b.2.map fun d => (d.1, meantValues sets d.2))

/-- The positions `ps` are allowed for the variables of a block: each is a position in the list of its variable; with `matched` they are all
the same; with `mixed` they are all different. -/
def Allowed (b : MeantBlock) (ps : List Nat) : Prop :=
  List.Forall₂ (fun v p => p < v.2.length) b.2 ps ∧
    match b.1 with
    | .freely => True
    | .matched => ∀ p ∈ ps, ∀ q ∈ ps, p = q
    | .mixed => ps.Nodup

/-- A choice is allowed for the blocks of a rule. -/
def Choice (bs : List MeantBlock) (c : List (List Nat)) : Prop := List.Forall₂ Allowed bs c

/-- The variables with the values of a choice. -/
def chosen (bs : List MeantBlock) (c : List (List Nat)) : List (Str × Str) :=
  (bs.zip c).flatMap fun b => (b.1.2.zip b.2).filterMap fun v => (v.1.2[v.2]?).map fun s => (v.1.1, s)

/-- The names of the variables of a rule. -/
def names (bs : List MeantBlock) : List Str := bs.flatMap fun b => b.2.map (·.1)

/-- A symbol of the rule is written as `out` if the variables have these values: a variable as its value, and another symbol as it is.  The name of
the rule gets, before its last character, a list of the variables with their values, in the order of the variables' names. -/
def Written (values : List (Str × Str)) (symbol out : Str) : Prop :=
  (¬ "__HFST_TWOLC_RULE_NAME".toList <:+: symbol →
    (∀ v, (symbol, v) ∈ values → out = v) ∧ (symbol ∉ values.map (·.1) → out = symbol)) ∧
  ("__HFST_TWOLC_RULE_NAME".toList <:+: symbol →
    ∃ sorted : List (Str × Str), sorted.Perm values ∧ sorted.Pairwise (fun a b => a.1 < b.1) ∧
      ∃ l, symbol.getLast? = some l ∧
        out = symbol.dropLast ++ (if values = [] then [] else "__HFST_TWOLC_SPACESUBCASE:".toList) ++
          sorted.flatMap (fun e => "__HFST_TWOLC_SPACE".toList ++ e.1 ++ "=".toList ++ e.2) ++ [l])

/-- A rule is written as `line` if the variables have these values. -/
def WrittenRule (symbols : List Str) (values : List (Str × Str)) (line : Str) : Prop :=
  ∃ outs, List.Forall₂ (Written values) symbols outs ∧ line = outs.flatMap (· ++ " ".toList)

/-- The variables of a rule are in order: no variable is there twice, each has a value, variables that are matched have the same number of values,
and variables that are mixed can be given different positions. -/
structure InOrder (bs : List MeantBlock) : Prop where
  once : (names bs).Nodup
  valued : ∀ b ∈ bs, ∀ v ∈ b.2, v.2 ≠ []
  same : ∀ b ∈ bs, b.1 = .matched → ∀ v ∈ b.2, ∀ w ∈ b.2, v.2.length = w.2.length
  different : ∀ b ∈ bs, b.1 = .mixed → ∃ ps, Allowed b ps

/-- `lines` is the rule once for each allowed choice. -/
def OncePerChoice (bs : List MeantBlock) (symbols : List Str) (lines : List Str) : Prop :=
  ∃ cs, cs.Nodup ∧ (∀ c, c ∈ cs ↔ Choice bs c) ∧ List.Forall₂ (fun c line => WrittenRule symbols (chosen bs c) line) cs lines

end Hfst.Twolc
