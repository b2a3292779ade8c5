import Verif.Props.OlWalkGraph

/-!
# Examples and counterexamples for walking through the tables
-/
namespace Hfst.Ol
open Hfst.Basic

/-- A graph with a flag, a cycle, an epsilon, and unknown and identity symbols. -/
def readGraph : Graph where
  states := [[⟨1, "a".toList, "b".toList, 1⟩, ⟨1, identity, identity, 2⟩, ⟨1, unknown, "b".toList, 3⟩, ⟨2, "@P.X.A@".toList, "@P.X.A@".toList, 0⟩],
    [⟨1, "b".toList, "b".toList, 1⟩, ⟨0, epsilon, "a".toList, 5⟩], [⟨1, "@R.X.A@".toList, "@R.X.A@".toList, 0⟩, ⟨1, "@R.X.B@".toList, "@R.X.B@".toList, 0⟩]]
  finals := [(1, 4)]
  alphabet := [epsilon, unknown, identity, "a".toList, "b".toList, "@P.X.A@".toList, "@R.X.A@".toList, "@R.X.B@".toList]

theorem read_wf : WF readGraph := by
  refine ⟨by decide, all_arcs (p := fun _ a => a.target < readGraph.states.length) (by decide +kernel), ?_⟩
  intro s w h
  exact (by decide : ∀ x ∈ readGraph.finals, x.1 < readGraph.states.length) _ (mapGet_mem h)

theorem read_weights : ∀ w, HasWeight readGraph w → smallWeight (smallBits w) = w ∧ smallBits w ≠ noIndex :=
  weights_of (by decide +kernel) (by decide +kernel)

theorem read_bytes : ByteGraph readGraph := by
  unfold ByteGraph ByteSym
  exact ⟨by decide +kernel, all_arcs (p := fun _ a => (∀ c ∈ a.inp, c.toNat < 256) ∧ ∀ c ∈ a.out, c.toNat < 256) (by decide +kernel)⟩

theorem read_alpha : AlphaOK readGraph :=
  ⟨all_arcs (p := fun _ a => a.inp ∈ readGraph.alphabet ∧ a.out ∈ readGraph.alphabet) (by decide +kernel), by decide +kernel, by decide +kernel,
    by decide +kernel⟩

theorem read_all : AllRead readGraph := by
  have hmem : ∀ x, (x ∈ readGraph.alphabet ∨ ∃ q, ∃ a ∈ readGraph.arcs q, a.inp = x ∨ a.out = x) → x ∈ readGraph.alphabet := by
    rintro x (h | ⟨q, a, ha, rfl | rfl⟩)
    · exact h
    · exact (read_alpha.arcs q a ha).1
    · exact (read_alpha.arcs q a ha).2
  refine ⟨fun x hx => ?_, fun x hx => ?_⟩
  · rcases (by decide +kernel : ∀ x ∈ readGraph.alphabet, x = Basic.epsilon ∨ Flags.isDiacritic x = true ∨
        ∃ q ∈ List.range 3, ∃ a ∈ readGraph.arcs q, a.inp = x) x (hmem x hx) with h | h | ⟨q, _, h⟩
    · exact .inl h
    · exact .inr (.inl h)
    · exact .inr (.inr ⟨q, h⟩)
  · exact (by decide +kernel : ∀ x ∈ readGraph.alphabet, isInsertion x = false) x (hmem x hx)

/-- `readGraph` can be walked through. -/
example :=
  C40_partial symOrder symOrder_perm full85_zero read_weights read_wf read_bytes read_all (made_for (by decide +kernel)) (by decide +kernel)
    (by decide +kernel) (-1)

/-- `readGraph` can be converted back. -/
example : ∃ g', toBasic ((madeFor readGraph).machine smallWeight (-1)) (madeFor readGraph).table.length 4 = .ok g' ∧
    (∀ x, x ∈ g'.alphabet ↔ x ∈ readGraph.alphabet) ∧ ∀ l w, Accepts g' l w ↔ Accepts readGraph l w :=
  C62_partial symOrder symOrder_perm full85_zero read_weights read_wf read_alpha read_bytes read_all (made_for (by decide +kernel))
    (by decide +kernel) (by decide +kernel) (-1) (by decide)

/-- The caller keepAlls the reports. -/
def keepAll : Callback (List (TwoLevel × Bool)) := fun c p f => (c ++ [(p, f)], true, true)

theorem keepAll_goes : GoesOn keepAll := fun _ _ _ => rfl

/-- The paths of `readGraph` that visit no state more than twice, and whose flags allow it, are reported without the flags. -/
example : ∃ rs : List (TwoLevel × Bool), extractPaths ((madeFor readGraph).machine smallWeight (-1)) (madeFor readGraph).table.length
      ⟨1, if true then some (madeFor readGraph).fd else none, true⟩ keepAll 7 [] = .ok (rs.foldl (fun c r => (keepAll c r.1 r.2).1) []) ∧
    ∀ r, r ∈ rs ↔ ∃ l q, GPath readGraph 0 l q ∧ l ≠ [] ∧ Followed 1 true l ∧ r = pathReport readGraph true l q :=
  C43_partial symOrder symOrder_perm full85_zero read_weights read_wf read_bytes read_all (made_for (by decide +kernel))
    (by decide +kernel) (by decide +kernel) (-1) (fun _ => rfl)
    (fun _ => ⟨by decide +kernel, by unfold Flags.NoEmptyValue; decide +kernel⟩) (.inl (by decide)) keepAll_goes []

/-- There are such reports: `a:b` to the final state, and the flags that do not fit are not followed. -/
example : (match extractPaths ((madeFor readGraph).machine smallWeight (-1)) (madeFor readGraph).table.length
      ⟨0, if true then some (madeFor readGraph).fd else none, true⟩ keepAll 4 [] with
    | .ok rs => decide (((5, [([97], [98])]), true) ∈ rs) && decide (((4, [([], []), ([], [])]), true) ∈ rs) && decide (rs.length = 5)
    | _ => false) = true := by decide +kernel

/-- **C40 does not hold** if there is a symbol that is not read: the graph reads `a` as `+N`, and in the converted transducer enumerating
the transitions of the start state, and so also converting it back, reads outside the index table. -/
theorem C40_violated : ∃ (g : Graph) (C : Converted), Suitable g ∧ convert symOrder full85 smallBits g = .ok C ∧
    transitionsFrom (C.machine smallWeight (-1)) C.table.length 0 = .undefined ∧
    ∀ fuel, toBasic (C.machine smallWeight (-1)) C.table.length fuel = .undefined := by
  have h1 : transitionsFrom ((madeFor tagGraph).machine smallWeight (-1)) (madeFor tagGraph).table.length 0 = .undefined := by decide +kernel
  have h2 : (match placeFinal ((madeFor tagGraph).machine smallWeight (-1)) 0 with | .ok _ => true | _ => false) = true := by decide +kernel
  refine ⟨tagGraph, madeFor tagGraph, suitable_of (by decide) (by decide) (by decide +kernel) (by decide +kernel) (by decide +kernel)
    (by decide +kernel), made_for (by decide +kernel), h1, ?_⟩
  intro fuel
  unfold toBasic Unfolding.addState
  cases hp : placeFinal ((madeFor tagGraph).machine smallWeight (-1)) 0 with
  | undefined => rw [hp] at h2; cases h2
  | throws => rw [hp] at h2; cases h2
  | ok f => cases fuel with
    | zero => rfl
    | succ n => simp only [Outcome.bind, Unfolding.run, h1]

/-- A graph that accepts the empty string. -/
def emptyGraph : Graph where
  states := [[⟨1, identity, identity, 2⟩, ⟨1, unknown, identity, 3⟩], []]
  finals := [(0, 1), (1, 4)]
  alphabet := [epsilon, unknown, identity]

set_option synthInstance.maxSize 1024 in
/-- **C43 does not hold** for the empty path: it is accepted, but it is not reported. -/
theorem C43_violated : ∃ (g : Graph) (C : Converted) (rs : List (TwoLevel × Bool)), convert symOrder full85 smallBits g = .ok C ∧ WF g ∧ AlphaOK g ∧
    Accepts g [] 1 ∧ Followed 5 false [] ∧
    extractPaths (C.machine smallWeight (-1)) C.table.length ⟨5, none, false⟩ keepAll 20 [] = .ok rs ∧ ∀ r ∈ rs, r.1.2 ≠ [] := by
  refine ⟨emptyGraph, madeFor emptyGraph, [((6, [(asBytes identity, asBytes identity)]), true), ((7, [(asBytes unknown, asBytes identity)]), true)],
    made_for (by decide +kernel), ?_, ?_, ⟨0, 0, 1, .nil 0, by decide, rfl⟩, ?_, by decide +kernel, by decide +kernel⟩
  · refine ⟨by decide, all_arcs (p := fun _ a => a.target < emptyGraph.states.length) (by decide +kernel), ?_⟩
    intro s w h
    exact (by decide : ∀ x ∈ emptyGraph.finals, x.1 < emptyGraph.states.length) _ (mapGet_mem h)
  · exact ⟨all_arcs (p := fun _ a => a.inp ∈ emptyGraph.alphabet ∧ a.out ∈ emptyGraph.alphabet) (by decide +kernel), by decide, by decide, by decide⟩
  · refine ⟨.inr fun r => ?_, fun h => by cases h⟩
    rw [List.map_nil, List.count_singleton]
    split <;> decide

end Hfst.Ol
