import Verif.Props.TwolcRules

/-!
# C89: examples, and where rules with variables go wrong
-/
namespace Hfst.Twolc
open Hfst.Basic (Outcome)

/-- A parser with a set `V` of two symbols. -/
def demoParser : Parser := { sets := [("V".toList, ["e".toList, "f".toList])] }

/-- `"R" x:y <=> z _ w ; where x in (a b) and y in V z in (c d) matched and u in (g h) w in (i j) mixed`. -/
def demoRule : RuleText where
  symbols := ["__HFST_TWOLC_RULE_NAME=R\"".toList, "x".toList, ":".toList, "y".toList, "u".toList, "z".toList, "w".toList, "k".toList]
  blocks := [(.freely, [("x".toList, ["a".toList, "b".toList])]),
    (.matched, [("y".toList, ["V".toList]), ("z".toList, ["c".toList, "d".toList])]),
    (.mixed, [("u".toList, ["g".toList, "h".toList]), ("w".toList, ["i".toList, "j".toList])])]

theorem demo_between : Between demoParser := ⟨rfl, rfl⟩

theorem demo_inOrder : InOrder (meantBlocks demoParser.sets demoRule) := by
  have h : meantBlocks demoParser.sets demoRule = [(.freely, [("x".toList, ["a".toList, "b".toList])]),
    (.matched, [("y".toList, ["e".toList, "f".toList]), ("z".toList, ["c".toList, "d".toList])]),
    (.mixed, [("u".toList, ["g".toList, "h".toList]), ("w".toList, ["i".toList, "j".toList])])] := by decide +kernel
  rw [h]
  refine ⟨by decide +kernel, by decide +kernel, by decide +kernel, ?_⟩
  intro b hb hk
  simp only [List.mem_cons, List.not_mem_nil, or_false] at hb
  rcases hb with rfl | rfl | rfl
  · cases hk
  · cases hk
  · exact ⟨[0, 1], .cons (by decide) (.cons (by decide) .nil), by decide⟩

/-- The hypotheses of `C89_once_partial` hold for a rule with blocks of all three kinds, and one of its choices. -/
example : ∃ n, ∀ fuel ≥ n, ∃ lines, OncePerChoice (meantBlocks demoParser.sets demoRule) demoRule.symbols lines ∧
    rule fuel demoParser demoRule = .ok (some { demoParser with output := lines.flatten }) :=
  C89_once_partial demoParser demo_between demoRule demo_inOrder

/-- What is written for a rule with matched and mixed variables, in full. -/
example : (match rule 10 demoParser { demoRule with
      symbols := ["__HFST_TWOLC_RULE_NAME=R\"".toList, "y".toList, "z".toList, "u".toList, "w".toList, "k".toList], blocks := demoRule.blocks.drop 1 } with
    | .ok (some p) => String.ofList p.output
    | _ => "") =
    "__HFST_TWOLC_RULE_NAME=R__HFST_TWOLC_SPACESUBCASE:__HFST_TWOLC_SPACEu=h__HFST_TWOLC_SPACEw=i__HFST_TWOLC_SPACEy=e__HFST_TWOLC_SPACEz=c\" e c h i k " ++
    "__HFST_TWOLC_RULE_NAME=R__HFST_TWOLC_SPACESUBCASE:__HFST_TWOLC_SPACEu=h__HFST_TWOLC_SPACEw=i__HFST_TWOLC_SPACEy=f__HFST_TWOLC_SPACEz=d\" f d h i k " ++
    "__HFST_TWOLC_RULE_NAME=R__HFST_TWOLC_SPACESUBCASE:__HFST_TWOLC_SPACEu=g__HFST_TWOLC_SPACEw=j__HFST_TWOLC_SPACEy=e__HFST_TWOLC_SPACEz=c\" e c g j k " ++
    "__HFST_TWOLC_RULE_NAME=R__HFST_TWOLC_SPACESUBCASE:__HFST_TWOLC_SPACEu=g__HFST_TWOLC_SPACEw=j__HFST_TWOLC_SPACEy=f__HFST_TWOLC_SPACEz=d\" f d g j k " := by
  decide +kernel

/-- The hypotheses of `C89_rules_partial` hold for two rules, of which the second has a symbol that is a variable of the first. -/
example : ∃ n, ∀ fuel ≥ n, ∃ lines : List (List Str),
    List.Forall₂ (fun r ls => OncePerChoice (meantBlocks demoParser.sets r) r.symbols ls) [demoRule, ⟨["x".toList], []⟩] lines ∧
      ruleList fuel demoParser [demoRule, ⟨["x".toList], []⟩] = .ok (some { demoParser with output := lines.flatten.flatten }) := by
  refine C89_rules_partial demoParser demo_between _ ?_
  intro r hr
  simp only [List.mem_cons, List.not_mem_nil, or_false] at hr
  rcases hr with rfl | rfl
  · exact demo_inOrder
  · exact ⟨by decide, fun b hb => (by cases hb), fun b hb => (by cases hb), fun b hb => (by cases hb)⟩

/-- `where x in (a b) y in (c) matched` is refused. -/
example : rule 5 {sets := []} ⟨["x".toList], [(.matched, [("x".toList, ["a".toList, "b".toList]), ("y".toList, ["c".toList])])]⟩ = .ok none :=
  C89_unequal _ ⟨rfl, rfl⟩ _ (by decide +kernel)
    ⟨_, List.mem_cons_self, rfl, ("x".toList, ["a".toList, "b".toList]), by decide +kernel, ("y".toList, ["c".toList]), by decide +kernel, by decide +kernel⟩ 5

/-- `where x in ( )` ends the program. -/
example : rule 5 {sets := []} ⟨["x".toList], [(.freely, [("x".toList, [])])]⟩ = .throws :=
  C89_novalues_violated _ ⟨rfl, rfl⟩ _ ⟨_, List.mem_cons_self, ("x".toList, []), by decide +kernel, rfl⟩ 5

/-- `"R" x:y <=> _ ; where x in (a) y in (b) mixed`. -/
def mixedRule : RuleText where
  symbols := ["x".toList, ":".toList, "y".toList]
  blocks := [(.mixed, [("x".toList, ["a".toList]), ("y".toList, ["b".toList])])]

theorem mixed_none (ps : List Nat) (x y a b : Str) : ¬ Allowed (.mixed, [(x, [a]), (y, [b])]) ps := by
  rintro ⟨h1, h2⟩
  cases h1 with
  | cons hp h1 =>
    cases h1 with
    | cons hq h1 =>
      cases h1
      simp at hp hq
      subst hp hq
      simp at h2

/-- **C89 is violated** for mixed variables that cannot be given different positions.  There is no choice, but the rule is written once, with the variables
where their values should be. -/
theorem C89_mixed_violated : (∀ c, ¬ Choice (meantBlocks [] mixedRule) c) ∧
    ∀ fuel, rule fuel { sets := [] } mixedRule = .ok (some { sets := [], output := "x : y ".toList }) := by
  refine ⟨fun c hc => ?_, fun fuel => ?_⟩
  · have h : meantBlocks [] mixedRule = [(.mixed, [("x".toList, ["a".toList]), ("y".toList, ["b".toList])])] := by decide +kernel
    rw [h] at hc
    cases hc with
    | cons h1 _ => exact mixed_none _ _ _ _ _ h1
  · have h : ∃ w, (∀ fuel, writeRule fuel ⟨[], [], [], [[⟨"x".toList, ["a".toList]⟩, ⟨"y".toList, ["b".toList]⟩]]⟩ mixedRule.symbols [] = .ok ([], w)) ∧
        w = "x : y ".toList := by
      refine ⟨replaceVariables [] mixedRule.symbols, fun fuel => ?_, by decide +kernel⟩
      have he : RuleVariables.empty ⟨[], [], [], [[⟨"x".toList, ["a".toList]⟩, ⟨"y".toList, ["b".toList]⟩]]⟩ = .ok true := by decide +kernel
      rw [writeRule, he]
      rfl
    obtain ⟨w, h1, rfl⟩ := h
    have hr : readBlocks [] {} mixedRule.blocks = .ok ⟨[], [], [], [[⟨"x".toList, ["a".toList]⟩, ⟨"y".toList, ["b".toList]⟩]]⟩ := by decide +kernel
    rw [rule]
    simp only
    rw [hr, ok_bind, h1 fuel]
    rfl

/-- `"R" x:y <=> _ ; where x in (a) y in (b) mixed and z in (c d)`. -/
def mixedRule2 : RuleText where
  symbols := ["x".toList, ":".toList, "y".toList, "z".toList]
  blocks := [(.mixed, [("x".toList, ["a".toList]), ("y".toList, ["b".toList])]), (.freely, [("z".toList, ["c".toList, "d".toList])])]

/-- **C89 is violated** for such variables beside others: the loop starts, and reads what the end of a vector points to. -/
theorem C89_undefined_violated (fuel : Nat) : (∀ c, ¬ Choice (meantBlocks [] mixedRule2) c) ∧
    rule (fuel + 1) { sets := [] } mixedRule2 = .undefined := by
  refine ⟨fun c hc => ?_, ?_⟩
  · have h : meantBlocks [] mixedRule2 = [(.mixed, [("x".toList, ["a".toList]), ("y".toList, ["b".toList])]),
      (.freely, [("z".toList, ["c".toList, "d".toList])])] := by decide +kernel
    rw [h] at hc
    cases hc with
    | cons h1 _ => exact mixed_none _ _ _ _ _ h1
  · have hr : readBlocks [] {} mixedRule2.blocks = .ok ⟨[], [[⟨"z".toList, ["c".toList, "d".toList]⟩]], [],
      [[⟨"x".toList, ["a".toList]⟩, ⟨"y".toList, ["b".toList]⟩]]⟩ := by decide +kernel
    rw [rule]
    simp only
    rw [hr, ok_bind]
    generalize hv : (⟨[], [[⟨"z".toList, ["c".toList, "d".toList]⟩]], [], [[⟨"x".toList, ["a".toList]⟩, ⟨"y".toList, ["b".toList]⟩]]⟩ : RuleVariables) = rv
    have he : rv.empty = .ok false := by subst hv; decide +kernel
    obtain ⟨b, hb⟩ : ∃ b, rv.first = .ok b := by subst hv; exact ⟨_, rfl⟩
    obtain ⟨e, hl⟩ : ∃ e, rv.last = .ok e := by subst hv; exact ⟨_, rfl⟩
    have hne : (rv.first.bind fun b => rv.last.bind fun e => .ok (b.eq e)) = .ok false := by subst hv; decide +kernel
    have hs : (rv.first.bind fun b => b.set []) = .undefined := by subst hv; decide +kernel
    rw [hb, hl] at hne
    rw [hb] at hs
    simp only [ok_bind, Outcome.ok.injEq] at hne hs
    rw [writeRule, he, ok_bind, hb, hl]
    simp only [Bool.false_eq_true, if_false, ok_bind]
    rw [writeAll, hne, hs]
    rfl

end Hfst.Twolc
