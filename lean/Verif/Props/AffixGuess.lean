import Verif.Lemmas.Graph
import Verif.Model.AffixGuess
import Verif.Spec.Traverse

/-!
# C107: the guesser of hfst-affix-guessify --direction=prefix
-/
namespace Hfst.AffixGuess
open Hfst.Basic Hfst.Basic.Graph Hfst.Traverse

theorem length_withState (g : Graph) (w : Int) : (withState g w).states.length = g.states.length + 1 := by
  simp [withState, addTransition, addState, setFinal, addStateN, addSymbol, guessArc]

theorem mem_arcs (g : Graph) (w : Int) (t : Nat) (a : Arc) :
    a ∈ (guessPrefix g w).arcs t ↔ a ∈ g.arcs t ∨ (t ≤ g.states.length ∧ a = ⟨g.states.length, identity, identity, w⟩) := by
  unfold guessPrefix
  rw [foldl_addTransition_arcs, List.mem_append]
  have h1 : a ∈ (withState g w).arcs t ↔ a ∈ g.arcs t ∨ (t = g.states.length ∧ a = ⟨g.states.length, identity, identity, w⟩) := by
    unfold withState
    rw [arcs_addTransition]
    by_cases h : t = g.addState.2
    · rw [if_pos h, List.mem_append]
      have h' : t = g.states.length := h
      rw [← h]
      simp [guessArc, h']
    · have h' : ¬ t = g.states.length := h
      rw [if_neg h]
      simp [h']
  have h2 : a ∈ List.map (·.2) (((List.range ((withState g w).maxState + 1)).map fun s => (s, guessArc g.addState.2 w)).filter
      fun e => e.1 = t) ↔ t ≤ g.states.length ∧ a = ⟨g.states.length, identity, identity, w⟩ := by
    simp only [List.mem_map, List.mem_filter, List.mem_range, maxState, length_withState, decide_eq_true_eq]
    constructor
    · rintro ⟨e, ⟨⟨s, hs, rfl⟩, rfl⟩, rfl⟩
      exact ⟨by simp at hs ⊢; omega, rfl⟩
    · rintro ⟨ht, rfl⟩
      exact ⟨_, ⟨⟨t, by omega, rfl⟩, rfl⟩, rfl⟩
  rw [h1, h2]
  constructor
  · rintro ((h | ⟨rfl, h⟩) | h)
    · exact .inl h
    · exact .inr ⟨Nat.le_refl _, h⟩
    · exact .inr h
  · rintro (h | h)
    · exact .inl (.inl h)
    · exact .inr h

theorem final_guess (g : Graph) (w : Int) (t : Nat) :
    (guessPrefix g w).final t = if t = g.states.length then some 0 else g.final t := by
  unfold guessPrefix
  rw [foldl_addTransition_final]
  unfold withState
  rw [final_addTransition, final_setFinal]
  rfl

/-- **C107, the paths**: the paths of the guesser that are accepted are those of the transducer, with their final weights, and in addition
every path of the transducer from the initial state, accepted or not, with one or more transitions after it that each read any symbol
the transducer does not know, with the weight given; these are accepted with weight 0. -/
theorem C107_prefix_paths (g : Graph) (w : Int) (h0 : 0 < g.states.length) (hg : ∀ s, ∀ a ∈ g.arcs s, a.target < g.states.length)
    (as : List Arc) (v : Int) :
    (∃ t, Walk (guessPrefix g w) 0 as t ∧ (guessPrefix g w).final t = some v) ↔
      (∃ t, Walk g 0 as t ∧ g.final t = some v) ∨
      (v = 0 ∧ ∃ before s n, Walk g 0 before s ∧ as = before ++ List.replicate (n + 1) ⟨g.states.length, identity, identity, w⟩) := by
  have hlt : ∀ {as t}, Walk g 0 as t → t < g.states.length := by
    intro as t h
    cases h with
    | stay => exact h0
    | go _ ha => exact hg _ _ ha
  have up : ∀ {as t}, Walk g 0 as t → Walk (guessPrefix g w) 0 as t := by
    intro as t h
    induction h with
    | stay => exact .stay _
    | go _ ha ih => exact .go ih ((mem_arcs g w _ _).2 (.inl ha))
  have more : ∀ {before s}, Walk g 0 before s → ∀ n,
      Walk (guessPrefix g w) 0 (before ++ List.replicate (n + 1) ⟨g.states.length, identity, identity, w⟩) g.states.length := by
    intro before s h n
    induction n with
    | zero => exact Walk.go (up h) ((mem_arcs g w _ ⟨g.states.length, identity, identity, w⟩).2 (.inr ⟨Nat.le_of_lt (hlt h), rfl⟩))
    | succ n ih =>
      rw [List.replicate_succ', ← List.append_assoc]
      exact Walk.go ih ((mem_arcs g w _ ⟨g.states.length, identity, identity, w⟩).2 (.inr ⟨Nat.le_refl _, rfl⟩))
  have down : ∀ {as t}, Walk (guessPrefix g w) 0 as t → Walk g 0 as t ∨
      (t = g.states.length ∧ ∃ before s n, Walk g 0 before s ∧
        as = before ++ List.replicate (n + 1) ⟨g.states.length, identity, identity, w⟩) := by
    intro as t h
    induction h with
    | stay => exact .inl (.stay _)
    | @go t as a _ ha ih =>
      rcases (mem_arcs g w _ _).1 ha with ha | ⟨_, rfl⟩
      · rcases ih with ih | ⟨rfl, _⟩
        · exact .inl (.go ih ha)
        · rw [arcs_eq_nil g (Nat.le_refl _)] at ha
          cases ha
      · refine .inr ⟨rfl, ?_⟩
        rcases ih with ih | ⟨_, before, s, n, hw, rfl⟩
        · exact ⟨as, t, 0, ih, rfl⟩
        · exact ⟨before, s, n + 1, hw, by rw [List.replicate_succ' (n := n + 1), List.append_assoc]⟩
  constructor
  · rintro ⟨t, hw, hf⟩
    rw [final_guess] at hf
    rcases down hw with h | ⟨rfl, h⟩
    · rw [if_neg (Nat.ne_of_lt (hlt h))] at hf
      exact .inl ⟨t, h, hf⟩
    · rw [if_pos rfl] at hf
      cases hf
      exact .inr ⟨rfl, h⟩
  · rintro (⟨t, hw, hf⟩ | ⟨rfl, before, s, n, hw, rfl⟩)
    · refine ⟨t, up hw, ?_⟩
      rw [final_guess, if_neg (Nat.ne_of_lt (hlt hw)), hf]
    · refine ⟨_, more hw n, ?_⟩
      rw [final_guess, if_pos rfl]

/-! ## A case that meets the hypotheses -/

/-- The word `a` (an example for tools/src/hfst-affix-guessify.cc:254-271). -/
def one : Graph := ⟨[[⟨1, ['a'], ['a'], 0⟩], []], [(1, 5)], [epsilon, ['a']]⟩

example : 0 < one.states.length ∧ (∀ l ∈ one.states, ∀ a ∈ l, a.target < one.states.length) ∧
    (guessPrefix one 3).states = [[⟨1, ['a'], ['a'], 0⟩, ⟨2, identity, identity, 3⟩], [⟨2, identity, identity, 3⟩],
      [⟨2, identity, identity, 3⟩, ⟨2, identity, identity, 3⟩]] := by decide +kernel

end Hfst.AffixGuess
