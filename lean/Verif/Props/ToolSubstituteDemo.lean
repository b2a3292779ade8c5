import Verif.Props.ToolSubstitute

/-!
# C98: cases that meet the hypotheses
-/
namespace Hfst.Subst
open Hfst.StdString Hfst.Basic

theorem not_hangs {label : Str} (h : label.take 2 ≠ ['\\', ':']) : ¬ Hangs label := by
  rintro ⟨c, r, rfl⟩
  exact h rfl

/-- An escaped colon, and one that divides. -/
theorem demo_label : IsPair "a\\:b:@0@".toList ("a\\:b".toList, epsilon) :=
  ((C98_label _ (not_hangs (by decide))).1 _ _).1 (by decide +kernel)

/-- A backslash written with a backslash does not escape the colon. -/
example : IsPair "a\\\\:b".toList ("a\\\\".toList, ['b']) := ((C98_label _ (not_hangs (by decide))).1 _ _).1 (by decide +kernel)

/-- Colons at the start and at the end do not divide. -/
example : ¬ ∃ p, IsPair ":a:".toList p := (C98_label _ (not_hangs (by decide))).2.1 (by decide +kernel)

theorem demo_single {label : Str} (h : ':' ∉ label) : ¬ ∃ p, IsPair label p := by
  rintro ⟨p, a, b, h', _⟩
  exact h (by rw [h'.1.1]; simp)

/-- A file with a comment, an empty line, two lines for one symbol and a line for a pair. -/
theorem demo_requests :
    Requests ["# x\n".toList, "a\tb\n".toList, "\n".toList, "c:d\t@0@:e\n".toList, "a\tz".toList]
      [.label ['a'] ['b'], .pair (['c'], ['d']) (epsilon, ['e']), .label ['a'] ['z']] := by
  refine .ignored (Or.inr ⟨" x\n".toList, by decide, by decide⟩) (.asks ?_ (.ignored (Or.inl (by decide)) (.asks ?_ (.asks ?_ .nil))))
  · exact ⟨⟨by decide, by decide, by decide, Or.inr (by decide)⟩, by decide, by decide, not_hangs (by decide), not_hangs (by decide),
      fun h => demo_single (by decide) h.1⟩
  · exact ⟨"c:d".toList, "@0@:e".toList, ⟨by decide, by decide, by decide, Or.inr (by decide)⟩, not_hangs (by decide), not_hangs (by decide),
      ((C98_label _ (not_hangs (by decide))).1 _ _).1 (by decide +kernel),
      ((C98_label _ (not_hangs (by decide))).1 _ _).1 (by decide +kernel)⟩
  · exact ⟨⟨by decide, by decide, by decide, Or.inl (by decide)⟩, by decide, by decide, not_hangs (by decide), not_hangs (by decide),
      fun h => demo_single (by decide) h.1⟩

/-- The last line for the symbol `a` counts. -/
example : LastLabel [.label ['a'] ['b'], .pair (['c'], ['d']) (epsilon, ['e']), .label ['a'] ['z']] ['a'] ['z'] :=
  ⟨[.label ['a'] ['b'], .pair (['c'], ['d']) (epsilon, ['e'])], [], rfl, by simp⟩

/-- A pair for a symbol: the hypotheses of `C98_mixed_violated`. -/
example : IsPair "a:b".toList (['a'], ['b']) ∧ ¬ Hangs "a:b".toList ∧ ¬ Hangs ['c'] ∧ ¬ ∃ q, IsPair ['c'] q :=
  ⟨((C98_label _ (not_hangs (by decide))).1 _ _).1 (by decide +kernel), not_hangs (by decide), not_hangs (by decide), demo_single (by decide)⟩

/-- The hypotheses of `C98_empty_option`. -/
example : ¬ Hangs "a:b".toList ∧ ¬ Hangs [] := ⟨not_hangs (by decide), not_hangs (by decide)⟩

/-- Lines as in `C98_wrong_line`: blanks in place of a tab, and an empty column. -/
example : (("a b\n".toList ≠ [] ∧ '\t' ∉ "a b\n".toList ∧ ¬ Ignored "a b\n".toList ∧ ∀ r, "a b\n".toList ≠ '\n' :: r)) ∧
    Columns "a\t\n".toList ['a'] [] := by
  refine ⟨⟨by decide, by decide, ?_, ?_⟩, by decide, by decide, by decide, Or.inr (by decide)⟩
  · rintro (h | ⟨r, _, h⟩)
    · exact absurd h (by decide)
    · cases h
  · intro r h
    cases h

end Hfst.Subst
