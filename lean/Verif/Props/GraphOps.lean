import Verif.Props.GraphEdit

/-!
# C15 (alphabet, violated), C16, C17, C18
-/
namespace Hfst.Basic
open Graph

/-- Symbols for the examples. -/
abbrev sa : Sym := ['a']
abbrev sb : Sym := ['b']
abbrev sc : Sym := ['c']

/-- A history that meets the hypotheses of `C15_states` and `C15_alphabet_partial`. -/
example : runEdits Graph.init [.addTransition 0 ⟨3, sa, sb, 2⟩ true, .setFinal 1 5, .substitute sa sc true true,
      .disjunct [(sc, sb), (sa, sa)] 1, .insertFreely [(sb, sb)] 0, .removeTransition 0 ⟨3, sc, sb, 0⟩ true] =
    .ok ⟨[[⟨0, sb, sb, 0⟩], [⟨1, sb, sb, 0⟩], [⟨2, sb, sb, 0⟩], [⟨4, sa, sa, 0⟩, ⟨3, sb, sb, 0⟩], [⟨4, sb, sb, 0⟩]],
      [(4, 1), (1, 5)], [sa, sb, epsilon, unknown, identity]⟩ := by decide

/-- C15, alphabet, as stated (every sequence of edits) is false: substituting the pair `epsilon:a` by `b:b` takes
epsilon out of the alphabet (no guard in `prune_alphabet_after_substitution`). -/
theorem C15_violated : ∃ es g, runEdits Graph.init es = .ok g ∧ epsilon ∉ g.alphabet := by
  refine ⟨[.addTransition 0 ⟨1, epsilon, sa, 0⟩ true, .substitutePairSet (epsilon, sa) [(sb, sb)]],
    ⟨[[⟨1, sb, sb, 0⟩, ⟨1, sb, sb, 0⟩], []], [], [sb, unknown, identity]⟩, by decide, by decide⟩

/-- C15, alphabet: removing the pair `a:b` from a state with two such transitions leaves one of them and takes both of
its symbols out of the alphabet. -/
theorem C15_used_violated : ∃ es g, runEdits Graph.init es = .ok g ∧ ∃ a ∈ g.arcs 0, a.inp ∉ g.alphabet := by
  refine ⟨[.addTransition 0 ⟨1, sa, sb, 0⟩ true, .addTransition 0 ⟨1, sa, sb, 1⟩ true, .removeTransitions (sa, sb)],
    ⟨[[⟨1, sa, sb, 1⟩], []], [], [epsilon, unknown, identity]⟩, by decide, ⟨1, sa, sb, 1⟩, by decide, by decide⟩

/-! ## C16 -/

/-- C16: after removing a transition, the transitions of a state are the old ones, in the same order, without those
(from the given state) that have the same input, output and target; final weights and the number of states do not
change. -/
theorem C16_removeTransition (g : Graph) (s : Nat) (a : Arc) (b : Bool) (t : Nat) :
    ((g.removeTransition s a b).arcs t).Sublist (g.arcs t) ∧
    (∀ c, ((g.removeTransition s a b).arcs t).count c =
      if t = s ∧ c.target = a.target ∧ c.inp = a.inp ∧ c.out = a.out then 0 else (g.arcs t).count c) ∧
    (g.removeTransition s a b).final t = g.final t ∧
    (g.removeTransition s a b).states.length = g.states.length := by
  obtain ⟨h1, h2, h3⟩ := removeTransition_spec g s a b
  refine ⟨by rw [h2]; exact List.filter_sublist, fun c => ?_, h3 t, h1⟩
  rw [h2]
  split
  · rename_i h
    rw [List.count_eq_zero]
    simp [h]
  · rename_i h
    rw [List.count_filter]
    simp only [Bool.not_eq_true', Bool.and_eq_false_iff, decide_eq_false_iff_not]
    grind

/-- A case: two matching transitions with different weights side by side, and one with another target. -/
example : ((Graph.init.addTransition 0 ⟨1, sa, sb, 0⟩).addTransition 0 ⟨1, sa, sb, 7⟩ |>.addTransition 0 ⟨0, sa, sb, 0⟩
    |>.removeTransition 0 ⟨1, sa, sb, 3⟩ true).states = [[⟨0, sa, sb, 0⟩], []] := by decide

/-! ## C17 -/

theorem filter_removeLoop (p : Sym × Sym) (l : List Arc) :
    (removeLoop p l).filter (fun a => a.label ≠ p) = l.filter (fun a => a.label ≠ p) := by
  fun_induction removeLoop p l <;> simp_all [List.filter_cons]

theorem removeLoop_exact (p : Sym × Sym) (l : List Arc)
    (h : ∀ i a b, l[i]? = some a → l[i+1]? = some b → ¬ (a.label = p ∧ b.label = p)) :
    removeLoop p l = l.filter (fun a => a.label ≠ p) := by
  fun_induction removeLoop p l with
  | case1 => rfl
  | case2 a h1 => simp [h1]
  | case3 a h1 => simp [h1]
  | case4 a b rest h1 ih =>
    have hb : b.label ≠ p := fun e => h 0 a b rfl rfl ⟨h1, e⟩
    rw [ih]
    · simp [h1, hb]
    · intro i x y hx hy
      exact h (i + 2) x y (by simpa using hx) (by simpa using hy)
  | case5 a b rest h1 ih =>
    rw [ih]
    · simp [h1, List.filter_cons]
    · intro i x y hx hy
      exact h (i + 1) x y (by simpa using hx) (by simpa using hy)

/-- C17, second half: all transitions with other pairs are kept, in their order, whatever the graph. -/
theorem C17_keeps_others (g : Graph) (p : Sym × Sym) (s : Nat) :
    ((g.removeTransitions p).arcs s).filter (fun a => a.label ≠ p) = (g.arcs s).filter (fun a => a.label ≠ p) ∧
    (g.removeTransitions p).final s = g.final s := by
  refine ⟨?_, rfl⟩
  unfold Graph.removeTransitions
  simp only []
  rw [arcs_map g (removeLoop p) rfl, filter_removeLoop]

/-- C17 as stated is false: of two neighbouring transitions with the pair, the second one stays. -/
theorem C17_violated : ∃ (g : Graph) (p : Sym × Sym) (s : Nat) (a : Arc),
    a ∈ (g.removeTransitions p).arcs s ∧ a.label = p :=
  ⟨⟨[[⟨0, sa, sb, 0⟩, ⟨0, sa, sb, 1⟩]], [], [sa, sb]⟩, (sa, sb), 0, ⟨0, sa, sb, 1⟩, by decide, by decide⟩

/-- C17 (partial): if no two neighbouring transitions of a state carry the pair, exactly the transitions with the pair
are removed.  Missing: states where two neighbouring transitions carry it, for which it is false. -/
theorem C17_partial (g : Graph) (p : Sym × Sym)
    (h : ∀ s i a b, (g.arcs s)[i]? = some a → (g.arcs s)[i+1]? = some b → ¬ (a.label = p ∧ b.label = p)) (s : Nat) :
    (g.removeTransitions p).arcs s = (g.arcs s).filter (fun a => a.label ≠ p) := by
  unfold Graph.removeTransitions
  simp only []
  rw [arcs_map g (removeLoop p) rfl, removeLoop_exact p _ (h s)]

/-- The second transition with the pair, after another one, is removed as well. -/
example : (Graph.removeTransitions ⟨[[⟨0, sa, sb, 0⟩, ⟨0, sa, sa, 1⟩, ⟨1, sa, sb, 0⟩], []], [], [sa, sb]⟩ (sa, sb)).states =
    [[⟨0, sa, sa, 1⟩], []] := by decide

/-! ## C18 -/

/-- Exchanging two numbers. -/
def swapNum (s1 s2 t : Nat) : Nat := if t = s1 then s2 else if t = s2 then s1 else t

/-- C18 as stated is false: with two final states, one of them loses its final weight. -/
theorem C18_violated : ∃ (g g' : Graph) (s1 s2 : Nat), WF g ∧ s1 ≠ s2 ∧ g.swapStateNumbers s1 s2 = .ok g' ∧
    g.final s1 ≠ none ∧ g'.final s2 = none := by
  refine ⟨⟨[[], []], [(0, 1), (1, 2)], []⟩, ⟨[[], []], [(0, 2)], []⟩, 0, 1, ?_, by decide, by decide, by decide, by decide⟩
  refine ⟨by decide, ?_, ?_⟩
  · intro s a h
    have hs := lt_of_mem_arcs h
    simp only [List.length_cons, List.length_nil] at hs
    match s, hs with
    | 0, _ => simp [Graph.arcs] at h
    | 1, _ => simp [Graph.arcs] at h
  · intro s w h
    have := mapGet_mem h
    simp only [List.mem_cons, Prod.mk.injEq, List.not_mem_nil, or_false] at this
    simp only [List.length_cons, List.length_nil]
    omega

/-- C18 (partial): for existing states that are not both final, swapping their numbers renames them everywhere: the
transitions and the final weight of a state are those of the renamed state, with renamed targets, and the alphabet
is unchanged.  Missing: two final states, for which it is false, and `s1 = s2` final, for which the code reads an
erased map node. -/
theorem C18_partial (g : Graph) (s1 s2 : Nat) (h1 : s1 < g.states.length) (h2 : s2 < g.states.length)
    (hf : g.final s1 = none ∨ g.final s2 = none) :
    ∃ g', g.swapStateNumbers s1 s2 = .ok g' ∧ g'.states.length = g.states.length ∧ g'.alphabet = g.alphabet ∧
      ∀ t, g'.arcs t = ((g.arcs (swapNum s1 s2 t)).map fun a => { a with target := swapNum s1 s2 a.target }) ∧
        g'.final t = g.final (swapNum s1 s2 t) := by
  unfold Graph.swapStateNumbers
  rw [List.getElem?_eq_getElem h1, List.getElem?_eq_getElem h2]
  simp only []
  have hu : ¬ (s1 = s2 ∧ (mapGet g.finals s1).isSome = true) := by
    rintro ⟨rfl, h⟩
    simp only [Graph.final] at hf
    rcases hf with hf | hf <;> simp [hf] at h
  rw [if_neg hu]
  refine ⟨_, rfl, by simp, rfl, fun t => ⟨?_, ?_⟩⟩
  · simp only [Graph.arcs, List.getElem?_map, List.getElem?_set, swapNum, List.length_set]
    have hr : ∀ a : Arc, (if a.target = s2 then s1 else if a.target = s1 then s2 else a.target) =
        (if a.target = s1 then s2 else if a.target = s2 then s1 else a.target) := by
      intro a; split <;> split <;> omega
    simp only [hr]
    by_cases e2 : s2 = t
    · subst e2
      by_cases e1 : s2 = s1
      · subst e1; simp [h1]
      · simp [e1, h1, h2]
    · by_cases e1 : s1 = t
      · subst e1; simp [h1, h2, e2]
      · have e1' : ¬ t = s1 := fun e => e1 e.symm
        have e2' : ¬ t = s2 := fun e => e2 e.symm
        simp only [e1, e2, e1', e2', if_false]
        cases g.states[t]? <;> simp
  · simp only [Graph.final] at hf ⊢
    simp only [swapNum]
    cases ha : mapGet g.finals s1 with
    | none =>
      cases hb : mapGet g.finals s2 with
      | none => grind
      | some w2 =>
        simp only [Option.isSome_none, Bool.false_eq_true, if_false, Option.isSome_some, if_true, hb, Option.getD_some,
          mapGet_put, mapGet_erase]
        grind
    | some w1 =>
      cases hb : mapGet g.finals s2 with
      | none =>
        simp only [Option.isSome_none, Bool.false_eq_true, if_false, Option.isSome_some, if_true, ha, Option.getD_some,
          mapGet_put, mapGet_erase]
        grind
      | some w2 => simp [ha, hb] at hf

/-- A case: one final state, a loop and transitions in both directions. -/
example : (⟨[[⟨0, sa, sa, 0⟩, ⟨1, sa, sb, 0⟩], [⟨0, sb, sb, 3⟩]], [(1, 4)], []⟩ : Graph).swapStateNumbers 0 1 =
    .ok ⟨[[⟨1, sb, sb, 3⟩], [⟨1, sa, sa, 0⟩, ⟨0, sa, sb, 0⟩]], [(0, 4)], []⟩ := by decide

end Hfst.Basic
