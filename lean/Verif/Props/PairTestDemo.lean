import Verif.Props.PairTest

/-!
# C95: where hfst-pair-test answers wrongly, and cases that meet the hypotheses
-/
namespace Hfst.PairTest
open Hfst.StdString Hfst.Basic

/-- A tokenizer for the cases below: each character is a pair of the character with itself (tokenize_pair_string, called in
tools/src/hfst-pair-test.cc:576; simplified). -/
def letters (l : Str) : Option PairString := some (l.map fun c => ([c], [c]))

/-- An arc of the cases below, without a weight (libhfst/src/implementations/HfstBasicTransition.h:34-38). -/
def arc (t : Nat) (i o : String) : Arc := ⟨t, i.toList, o.toList, 0⟩

/-- The word boundary and every unknown symbol, as all rules below have them (no code is modelled here). -/
def common : List Arc := [⟨0, "@#@".toList, epsilon, 0⟩, ⟨0, identity, identity, 0⟩]

/-- A rule with one state, the given further transitions and alphabet (no code is modelled here). -/
def oneState (l : List Arc) (al : List String) : Graph :=
  ⟨[common ++ l], [(0, 0)], [epsilon, unknown, identity, "@#@".toList] ++ al.map String.toList⟩

/-- Allows everything; knows no letters. -/
def free : Rule := ⟨oneState [] [], "free".toList⟩

/-- Allows `b` only as `b:c`. -/
def bToC : Rule := ⟨oneState [arc 0 "b" "c"] ["b", "c"], "b:c".toList⟩

/-- Allows `b` as `b`. -/
def bToB : Rule := ⟨oneState [arc 0 "b" "b"] ["b"], "b".toList⟩

theorem arcs_oneState (l : List Arc) (al : List String) (s : Nat) (a : Arc) (h : a ∈ (oneState l al).arcs s) :
    s = 0 ∧ a ∈ common ++ l := by
  cases s with
  | zero => exact ⟨rfl, h⟩
  | succ s => simp [Graph.arcs, oneState] at h

theorem bToC_rejects : ¬ RuleAccepts bToC.graph [(['b'], ['b'])] := by
  intro h
  cases h with
  | step h1 h2 h3 =>
    rename_i a
    have ht : a.target = 0 := by
      have := (arcs_oneState _ _ _ _ h1).2
      simp only [common, arc, List.cons_append, List.nil_append, List.mem_cons, List.not_mem_nil, or_false] at this
      rcases this with rfl | rfl | rfl <;> rfl
    rw [ht] at h3
    cases h3 with
    | step h4 h5 h6 =>
      rename_i b
      have := (arcs_oneState _ _ _ _ h4).2
      simp only [common, arc, List.cons_append, List.nil_append, List.mem_cons, List.not_mem_nil, or_false] at this
      rcases h5 with h5 | h5
      · rcases this with rfl | rfl | rfl
        · exact absurd h5.1 (by decide +kernel)
        · exact absurd h5.1 (by decide +kernel)
        · exact absurd h5.2 (by decide +kernel)
      · exact absurd (show ['b'] ∈ bToC.graph.alphabet by decide +kernel) h5.2.2.2

theorem accepts_b (r : Rule) (a : Arc) (h : ((⟨0, "@#@".toList, epsilon, 0⟩ : Arc)) ∈ r.graph.arcs 0) (ha : a ∈ r.graph.arcs 0)
    (ht : Takes r.graph a (['b'], ['b'])) (h0 : a.target = 0) (hf : r.graph.final 0 = some 0) :
    RuleAccepts r.graph [(['b'], ['b'])] := by
  refine Run.step (a := ⟨0, "@#@".toList, epsilon, 0⟩) h (Or.inl ⟨rfl, rfl⟩) ?_
  refine Run.step (a := a) ha ht ?_
  rw [h0]
  exact Run.step (a := ⟨0, "@#@".toList, epsilon, 0⟩) h (Or.inl ⟨rfl, rfl⟩) (Run.stop hf)

theorem free_accepts : RuleAccepts free.graph [(['b'], ['b'])] :=
  accepts_b free ⟨0, identity, identity, 0⟩ (by decide +kernel) (by decide +kernel)
    (Or.inr ⟨rfl, rfl, rfl, by decide +kernel⟩) rfl (by decide +kernel)

theorem bToB_accepts : RuleAccepts bToB.graph [(['b'], ['b'])] :=
  accepts_b bToB (arc 0 "b" "b") (by decide +kernel) (by decide +kernel) (Or.inl ⟨by decide +kernel, by decide +kernel⟩) rfl
    (by decide +kernel)

/-- **C95, symbols (violated)**: the symbols known to a rule are taken from the first rule of the file.  A test can succeed although a
rule rejects the pair string, and it can fail although every rule accepts it. -/
theorem C95_symbols_violated :
    (∃ (grammar : List Rule) (line : Str) (p : PairString), letters line = some p ∧ (∀ r ∈ grammar, Deterministic r.graph) ∧
      ¬ GrammarAccepts grammar p ∧ pairTest letters grammar true [line] = 0) ∧
    (∃ (grammar : List Rule) (line : Str) (p : PairString), letters line = some p ∧ (∀ r ∈ grammar, Deterministic r.graph) ∧
      GrammarAccepts grammar p ∧ pairTest letters grammar true [line] = 1) := by
  have det : ∀ l al, (∀ a ∈ common ++ l, a.target = 0) → Deterministic (oneState l al) := by
    intro l al h s a ha b hb _ _
    rw [h a (arcs_oneState _ _ _ _ ha).2, h b (arcs_oneState _ _ _ _ hb).2]
  have dfree : Deterministic free.graph := det _ _ (by decide +kernel)
  have dC : Deterministic bToC.graph := det _ _ (by decide +kernel)
  have dB : Deterministic bToB.graph := det _ _ (by decide +kernel)
  refine ⟨⟨[free, bToC], ['b'], [(['b'], ['b'])], rfl, ?_, ?_, by decide +kernel⟩,
    ⟨[bToB, free], ['b'], [(['b'], ['b'])], rfl, ?_, ?_, by decide +kernel⟩⟩
  · intro r hr
    simp only [List.mem_cons, List.not_mem_nil, or_false] at hr
    rcases hr with rfl | rfl
    · exact dfree
    · exact dC
  · intro h; exact bToC_rejects (h bToC (by simp))
  · intro r hr
    simp only [List.mem_cons, List.not_mem_nil, or_false] at hr
    rcases hr with rfl | rfl
    · exact dB
    · exact dfree
  · intro r hr
    simp only [List.mem_cons, List.not_mem_nil, or_false] at hr
    rcases hr with rfl | rfl
    · exact bToB_accepts
    · exact free_accepts

/-- A rule that has two transitions for `b`, of which only the second leads to the end (no code is modelled here). -/
def twoWays : Rule :=
  ⟨⟨[[arc 0 "b" "b", ⟨1, "@#@".toList, epsilon, 0⟩], [arc 2 "b" "b", arc 3 "b" "b"], [], [⟨4, "@#@".toList, epsilon, 0⟩], []], [(4, 0)],
    [epsilon, unknown, identity, "@#@".toList, ['b']]⟩, "two ways".toList⟩

/-- **C95, rules that are not deterministic (violated)**: only the first transition for a pair is followed, so that a test can fail
although every rule accepts the pair string. -/
theorem C95_nondeterministic_violated :
    ∃ (grammar : List Rule) (line : Str) (p : PairString), letters line = some p ∧ GrammarAccepts grammar p ∧
      pairTest letters grammar true [line] = 1 := by
  refine ⟨[twoWays], ['b'], [(['b'], ['b'])], rfl, ?_, by decide +kernel⟩
  intro r hr
  simp only [List.mem_cons, List.not_mem_nil, or_false] at hr
  subst hr
  refine Run.step (a := ⟨1, "@#@".toList, epsilon, 0⟩) (by decide +kernel) (Or.inl ⟨rfl, rfl⟩) ?_
  refine Run.step (a := arc 3 "b" "b") (by decide +kernel) (Or.inl ⟨by decide +kernel, by decide +kernel⟩) ?_
  refine Run.step (a := ⟨4, "@#@".toList, epsilon, 0⟩) (by decide +kernel) (Or.inl ⟨rfl, rfl⟩) ?_
  exact Run.stop (w := 0) (by decide +kernel)

/-! ## Cases that meet the hypotheses -/

/-- Two rules with one alphabet: the first allows `b` as `b` and as `c`, the second only as `c`. -/
def grammar2 : List Rule :=
  [⟨oneState [arc 0 "b" "b", arc 0 "b" "c"] ["b", "c"], "first".toList⟩, ⟨oneState [arc 0 "b" "c"] ["b", "c"], "second".toList⟩]

theorem oneState_ok (l : List Arc) (al : List String) (h : ∀ a ∈ l, a.inp ∈ al.map String.toList ∧ a.out ∈ al.map String.toList) :
    AlphaOK (oneState l al) := by
  refine ⟨?_, by simp [oneState], by simp [oneState], by simp [oneState]⟩
  intro s a ha
  have := (arcs_oneState _ _ _ _ ha).2
  rcases List.mem_append.1 this with h1 | h1
  · simp only [common, List.mem_cons, List.not_mem_nil, or_false] at h1
    rcases h1 with rfl | rfl
    · simp [oneState]
    · simp [oneState]
  · have h2 := h a h1
    exact ⟨List.mem_append_right _ h2.1, List.mem_append_right _ h2.2⟩

theorem grammar2_regular : Regular grammar2 := by
  refine ⟨?_, ?_, ?_⟩
  · intro r hr s a ha b hb _ _
    have z : ∀ x ∈ r.graph.arcs s, x.target = 0 := by
      intro x hx
      simp only [grammar2, List.mem_cons, List.not_mem_nil, or_false] at hr
      rcases hr with rfl | rfl
      · exact (by decide +kernel : ∀ x ∈ common ++ [arc 0 "b" "b", arc 0 "b" "c"], x.target = 0) x (arcs_oneState _ _ _ _ hx).2
      · exact (by decide +kernel : ∀ x ∈ common ++ [arc 0 "b" "c"], x.target = 0) x (arcs_oneState _ _ _ _ hx).2
    rw [z a ha, z b hb]
  · intro r hr
    simp only [grammar2, List.mem_cons, List.not_mem_nil, or_false] at hr
    rcases hr with rfl | rfl
    · exact oneState_ok _ _ (by decide +kernel)
    · exact oneState_ok _ _ (by decide +kernel)
  · intro r hr f hf x h1 h2 h3
    have hr' : r.graph.alphabet = [epsilon, unknown, identity, "@#@".toList, ['b'], ['c']] := by
      simp only [grammar2, List.mem_cons, List.not_mem_nil, or_false] at hr
      rcases hr with rfl | rfl
      · decide +kernel
      · decide +kernel
    have hf' : f = ⟨oneState [arc 0 "b" "b", arc 0 "b" "c"] ["b", "c"], "first".toList⟩ := by
      simp only [grammar2, List.head?_cons, Option.mem_def, Option.some.injEq] at hf
      exact hf.symm
    subst hf'
    rw [hr']
    constructor
    · intro hx
      simp only [List.mem_cons, List.not_mem_nil, or_false, h1, h2, h3, false_or] at hx
      rcases hx with rfl | rfl | rfl
      · exact ⟨0, ⟨0, "@#@".toList, epsilon, 0⟩, by decide +kernel, Or.inl rfl⟩
      · exact ⟨0, arc 0 "b" "b", by decide +kernel, Or.inl (by decide +kernel)⟩
      · exact ⟨0, arc 0 "b" "c", by decide +kernel, Or.inr (by decide +kernel)⟩
    · rintro ⟨s, a, ha, hx⟩
      have := (arcs_oneState _ _ _ _ ha).2
      have hall : ∀ a ∈ common ++ [arc 0 "b" "b", arc 0 "b" "c"],
          a.inp ∈ [epsilon, unknown, identity, "@#@".toList, ['b'], ['c']] ∧
          a.out ∈ [epsilon, unknown, identity, "@#@".toList, ['b'], ['c']] := by decide +kernel
      rcases hx with rfl | rfl
      · exact (hall a this).1
      · exact (hall a this).2

theorem letters_plain (l : Str) (p : PairString) (h : letters l = some p) : Plain p := by
  have hp : p = l.map fun c => ([c], [c]) := (Option.some.inj h).symm
  subst hp
  have hl : ∀ y ∈ l.map (fun c => (([c], [c]) : Sym × Sym)), y.1.length = 1 := by
    intro y hy
    obtain ⟨c, _, rfl⟩ := List.mem_map.1 hy
    rfl
  refine ⟨fun hm => ?_, fun hm => ?_, fun hm => ?_⟩
  · exact absurd (hl _ hm) (by decide +kernel)
  · exact absurd (hl _ hm) (by decide +kernel)
  · exact absurd (hl _ hm) (by decide +kernel)

/-- The test of `b` fails, and of a comment and an unknown letter it succeeds. -/
example : pairTest letters grammar2 true [" ! b".toList, "x".toList, "b".toList] ≠ 0 ∧
    pairTest letters grammar2 true [" ! b".toList, "x\n".toList] = 0 ∧ pairTest letters grammar2 false ["b".toList] = 0 := by
  decide +kernel

/-- So the second rule rejects `b`, by the theorem. -/
example : ¬ GrammarAccepts grammar2 [(['b'], ['b'])] := by
  have h := (C95_exit_partial letters grammar2 grammar2_regular ["b".toList] (fun l _ p hp => letters_plain _ p hp)).2.1
    (by decide +kernel)
  rcases h "b".toList (by simp) with ⟨bl, rest, h1, h2, h3⟩ | ⟨p, h1, h2⟩
  · exact absurd ((noTest_iff (cutLine "b".toList)).2 ⟨bl, rest, h1, h2, h3⟩) (by decide +kernel)
  · have : p = [(['b'], ['b'])] := by
      have e : letters (cutLine "b".toList) = some [(['b'], ['b'])] := by decide +kernel
      rw [e] at h1
      exact (Option.some.inj h1).symm
    rwa [this] at h2

/-- The rule named is the second one. -/
example : (testGrammar (knownSymbols grammar2) grammar2 true (withBoundaries [(['b'], ['b'])])).2 = ["second".toList] := by
  decide +kernel

example : ∃ rejecting : List Rule, List.Sublist rejecting grammar2 ∧
    (testGrammar (knownSymbols grammar2) grammar2 true (withBoundaries [(['b'], ['b'])])).2 = rejecting.map Rule.name :=
  let ⟨r, h1, _, h3⟩ := C95_names_partial grammar2 grammar2_regular [(['b'], ['b'])] (letters_plain ['b'] _ rfl)
  ⟨r, h1, h3⟩

/-- A tokenizer for two lines: the characters one by one (tokenize_string_pair, called in tools/src/hfst-pair-test.cc:691;
simplified). -/
def twoLines (x y : Str) : Option PairString := some ((x.zip y).map fun c => ([c.1], [c.2]))

theorem twoLines_plain (x y : Str) (p : PairString) (h : twoLines x y = some p) : Plain p := by
  have hp : p = (x.zip y).map fun c => ([c.1], [c.2]) := (Option.some.inj h).symm
  subst hp
  have hl : ∀ z ∈ (x.zip y).map (fun c => (([c.1], [c.2]) : Sym × Sym)), z.1.length = 1 := by
    intro z hz
    obtain ⟨c, _, rfl⟩ := List.mem_map.1 hz
    rfl
  refine ⟨fun hm => ?_, fun hm => ?_, fun hm => ?_⟩
  · exact absurd (hl _ hm) (by decide +kernel)
  · exact absurd (hl _ hm) (by decide +kernel)
  · exact absurd (hl _ hm) (by decide +kernel)

/-- A source file with a positive and a negative case. -/
def source : List Str := ["Alphabet a b:c ;\n".toList, "!!€ xb\n".toList, "!!€ xc\n".toList, " !!$ b\n".toList, "!!$ b \n".toList]

example : xerox twoLines grammar2 source = 0 := by decide +kernel

/-- So the grammar rejects some pair string for the negative case, by the theorem. -/
example : ∃ p, ¬ GrammarAccepts grammar2 p := by
  have h := ((C95_xerox_partial twoLines grammar2 grammar2_regular source twoLines_plain).1 (by decide +kernel)).2.2.2
  obtain ⟨p, _, hp⟩ := h 0 ['b'] ['b'] (by decide +kernel) (by decide +kernel)
  exact ⟨p, hp⟩

/-- A failing test has exit code 1. -/
example : pairTest letters grammar2 true ["b".toList] = 1 := C95_one _ _ _ _ (by decide +kernel)

end Hfst.PairTest
