import Verif.Props.KillPaths

/-!
# C96: symbols that come back, and cases that meet the hypotheses
-/
namespace Hfst.KillPaths
open Hfst.StdString Hfst.Basic
open Hfst.Reweight (Takes Walk)

/-- Accepts every symbol but `a`: `a` leads nowhere, and every symbol outside the alphabet leads to the end. -/
def noA : Graph :=
  { states := [[⟨2, ['a'], ['a'], 0⟩, ⟨1, identity, identity, 0⟩], [], []], finals := [(1, 0)],
    alphabet := [epsilon, unknown, identity, ['a']] }

theorem noA_killed : doKilling ['a'] noA =
    { states := [[⟨1, identity, identity, 0⟩], [], []], finals := [(1, 0)], alphabet := [epsilon, unknown, identity] } := by
  decide +kernel

/-- **C96, identity (violated)**: killing the paths with `a` can make a transducer accept `a` that did not accept it before.  The symbol
is not in the alphabet of the result, and so the identity symbol stands for it. -/
theorem C96_identity_violated :
    ∃ (g : Graph) (x : Sym), WF g ∧ AlphaOK g ∧ x ∈ g.alphabet ∧ ¬ PairTest.Run g 0 [(x, x)] ∧
      PairTest.Run (doKilling x g) 0 [(x, x)] := by
  refine ⟨noA, ['a'], ⟨by decide, ?_, ?_⟩, ⟨?_, by decide +kernel, by decide +kernel, by decide +kernel⟩, by decide +kernel, ?_, ?_⟩
  · intro s a ha
    rcases s with _ | _ | _ | s
    · exact (by decide +kernel : ∀ a ∈ noA.arcs 0, a.target < noA.states.length) a ha
    · cases ha
    · cases ha
    · simp [Graph.arcs, noA] at ha
  · intro s w h
    rcases s with _ | _ | s
    · simp [Graph.final, mapGet, noA] at h
    · decide
    · simp [Graph.final, mapGet, noA] at h
  · intro s a ha
    rcases s with _ | _ | _ | s
    · exact (by decide +kernel : ∀ a ∈ noA.arcs 0, a.inp ∈ noA.alphabet ∧ a.out ∈ noA.alphabet) a ha
    · cases ha
    · cases ha
    · simp [Graph.arcs, noA] at ha
  · intro h
    cases h with
    | step h1 h2 h3 =>
      rename_i a
      have ha : a = ⟨2, ['a'], ['a'], 0⟩ ∨ a = ⟨1, identity, identity, 0⟩ := by
        simpa [Graph.arcs, noA] using h1
      rcases ha with rfl | rfl
      · cases h3 with
        | stop hf => simp [Graph.final, mapGet, noA] at hf
      · rcases h2 with h2 | h2
        · exact absurd h2.1 (by decide +kernel)
        · exact absurd (show ['a'] ∈ noA.alphabet by decide +kernel) h2.2.2.2
  · rw [noA_killed]
    refine PairTest.Run.step (a := ⟨1, identity, identity, 0⟩) (by decide +kernel) (Or.inr ⟨rfl, rfl, rfl, by decide +kernel⟩) ?_
    exact PairTest.Run.stop (w := 0) (by decide +kernel)

/-! ## Cases that meet the hypotheses -/

/-- Two ways to the end, one of them with `a` as output; and a loop with `b`. -/
def twoPaths : Graph :=
  { states := [[⟨2, ['c'], ['a'], 1⟩, ⟨2, ['c'], ['d'], 2⟩], [], [⟨2, ['b'], ['b'], 3⟩]], finals := [(2, 4)],
    alphabet := [epsilon, unknown, identity, ['a'], ['b'], ['c'], ['d']] }

theorem twoPaths_takes : Takes twoPaths [(['c'], ['d'], 2), (['b'], ['b'], 3)] 4 :=
  ⟨2, .cons (a := ⟨2, ['c'], ['d'], 2⟩) (by decide +kernel) (.cons (a := ⟨2, ['b'], ['b'], 3⟩) (by decide +kernel) (.nil 2)),
    by decide +kernel⟩

/-- The path without `a` stays. -/
example : Takes (doKilling ['a'] twoPaths) [(['c'], ['d'], 2), (['b'], ['b'], 3)] 4 :=
  ((C96_kill ['a'] twoPaths).1 _ _).2 ⟨twoPaths_takes, by unfold Free; decide +kernel⟩

/-- The path with `a` is no longer there. -/
example : ¬ Takes (doKilling ['a'] twoPaths) [(['c'], ['a'], 1)] 4 := by
  rw [(C96_kill ['a'] twoPaths).1]
  rintro ⟨_, h⟩
  exact (h _ List.mem_cons_self).2 rfl

/-- A file with a comment, an empty line and two symbols; the last line does not end with a newline. -/
def file : List Str := ["# symbols\n".toList, "\n".toList, "a\n".toList, "b".toList]

theorem file_ok : FromFile file := by
  intro l hl
  have : l ∈ ["# symbols\n".toList, "\n".toList, "a\n".toList, "b".toList] := hl
  simp only [List.mem_cons, List.not_mem_nil, or_false] at this
  rcases this with rfl | rfl | rfl | rfl
  · exact ⟨"# symbols".toList, by decide +kernel, Or.inr (by decide +kernel)⟩
  · exact ⟨[], by decide +kernel, Or.inr (by decide +kernel)⟩
  · exact ⟨['a'], by decide +kernel, Or.inr (by decide +kernel)⟩
  · exact ⟨['b'], by decide +kernel, Or.inl ⟨by decide +kernel, by simp⟩⟩

theorem file_asks : Asks file ['b'] :=
  ⟨['b'], by decide +kernel, by simp, by intro r h; simp at h, by decide +kernel, Or.inl rfl⟩

/-- The file of the tool takes the path with `b` away. -/
example : ∃ change : Graph → Graph, killStream id { file := some file } [twoPaths, noA] = ⟨[change twoPaths, change noA], .success⟩ ∧
    ¬ Takes (change twoPaths) [(['c'], ['d'], 2), (['b'], ['b'], 3)] 4 := by
  obtain ⟨change, h1, h2⟩ := (C96_stream_partial id [twoPaths, noA]).2 file file_ok
  refine ⟨change, h1, ?_⟩
  rw [h2]
  rintro ⟨_, h⟩
  exact (h ['b'] file_asks _ (List.mem_cons_of_mem _ List.mem_cons_self)).1 rfl

/-- `c` is asked for with -S, but stays. -/
example : killStream id { symbol := some ['c'], file := some file } [twoPaths] = killStream id { file := some file } [twoPaths] :=
  C96_both_violated id ['c'] ['b'] file file_ok file_asks [twoPaths]

/-- A file with a comment only. -/
example : ∃ written, killStream id { symbol := some ['c'], file := some ["# none\n".toList] } [twoPaths, noA] = ⟨written, .undefined⟩ := by
  have hl : FromFile ["# none\n".toList] := by
    intro l hl
    rw [List.mem_singleton] at hl
    subst hl
    exact ⟨"# none".toList, by decide +kernel, Or.inr (by decide +kernel)⟩
  refine C96_freed_violated id ['c'] _ hl ?_ twoPaths noA []
  intro y hy
  exact absurd ((any_asks _ hl).2 ⟨y, hy⟩) (by decide +kernel)

end Hfst.KillPaths
