import Verif.Props.Extract
import Verif.Spec.Convert
import Verif.Spec.Sfst

/-!
# C88: where the extraction of paths goes wrong, and examples
-/
namespace Hfst.Extract
open Hfst.Basic (Outcome Sym)
open Hfst.Conv (OArc OState Ofst SymTable)

/-- A transducer with tropical weights is in order if its arcs lead to its states. -/
theorem tropical_ok {o : Ofst} (h : Hfst.Conv.OWF o) (st : SymTable) : (tropical o st).OK o.states.length ∧ (logarithmic o st).OK o.states.length := by
  have hsome : ∀ q, (o.states[q]?).isSome = true ↔ q < o.states.length := by simp
  constructor <;> constructor
  all_goals first
    | (exact fun q hq => (hsome q).mpr (h.start q hq))
    | (exact fun q d a hd ha => (hsome _).mpr (h.next d (List.mem_of_getElem? hd) a ha))
    | (exact fun q hq => (hsome q).mp hq)

/-- An SFST transducer is in order if its arcs lead to its nodes. -/
theorem sfst_ok {t : Hfst.Sfst.Shared} (h : t.graph.Closed) : (sfst t).OK t.graph.size := by
  have hsome : ∀ q, ((sfst t).node q).isSome = true ↔ q < t.graph.size := by
    intro q
    unfold sfst
    dsimp only
    by_cases hq : q < t.graph.size
    · rw [if_pos hq]
      simp [hq]
    · rw [if_neg hq]
      simp [hq]
  constructor
  · intro q hq
    injection hq with hq
    exact (hsome q).mpr (hq ▸ h.1)
  · intro q d a hd ha
    have hq : q < t.graph.size := (hsome q).mp (by rw [hd]; rfl)
    unfold sfst at hd
    dsimp only at hd
    rw [if_pos hq] at hd
    injection hd with hd
    subst hd
    obtain ⟨b, hb, rfl⟩ := List.mem_map.mp ha
    refine (hsome _).mpr (h.2 q hq b ?_)
    unfold Hfst.Sfst.Node.iter Hfst.Sfst.Node.epsArcs Hfst.Sfst.Node.otherArcs at hb
    rcases List.mem_append.mp hb with hb | hb
    · exact (List.mem_filter.mp hb).1
    · exact (List.mem_filter.mp hb).1
  · intro q hq
    exact (hsome q).mp hq

/-- **C88, all paths**: without limits, the paths that are wanted from a transducer with tropical or log weights are just what it accepts. -/
theorem C88_accepts {o : Ofst} {st : SymTable} (h0 : st.symbol 0 = Hfst.Basic.epsilon) (w : Int) (l : List (Sym × Sym)) :
    ((tropical o st).Yields false false (-1) (w, l) ↔ Hfst.Conv.OAccepts o st st l w) ∧
      ((logarithmic o st).Yields false false (-1) (w, l) ↔ Hfst.Conv.OAccepts o st st l w) := by
  have hname : ∀ x, Hfst.Conv.labelSymbol st x = st.symbol x := by
    intro x
    unfold Hfst.Conv.labelSymbol
    split
    · rename_i hx
      rw [hx, h0]
    · rfl
  have key : ∀ V : View, V.start = o.start → V.node = (fun q => o.states[q]?) → V.name = st.symbol →
      (V.Yields false false (-1) (w, l) ↔ Hfst.Conv.OAccepts o st st l w) := by
    intro V h1 h2 h3
    have hshown : ∀ x, V.shown false x = Hfst.Conv.labelSymbol st x := by
      intro x
      unfold View.shown
      rw [if_neg (by rintro ⟨h, _⟩; cases h), h3, hname]
    constructor
    · rintro ⟨q, k, r, d, f, a1, a2, a3, a4, a5, a6⟩
      clear a5
      injection a6 with a6 a7
      refine ⟨q, k.map fun a => (a.ilabel, a.olabel), (k.map (·.weight)).sum, r, d, f, by rw [← h1]; exact a1, ?_, by rw [h2] at a3; exact a3, a4, a6, ?_⟩
      · clear a1 a3 a6 a7
        induction a2 with
        | nil => exact .nil _
        | cons hd ha _ ih =>
          rw [h2] at hd
          exact .cons hd ha ih
      · rw [a7, List.map_map]
        apply List.map_congr_left
        intro a _
        exact Prod.ext (hshown _) (hshown _)
    · rintro ⟨q, k, v, r, d, f, a1, a2, a3, a4, rfl, rfl⟩
      have : ∃ m : List OArc, V.Path q m r ∧ (m.map (·.weight)).sum = v ∧ (m.map fun a => (a.ilabel, a.olabel)) = k := by
        clear a1 a3
        induction a2 with
        | nil => exact ⟨[], .nil, rfl, rfl⟩
        | @cons s q st' a l w hd ha _ ih =>
          obtain ⟨m, b1, b2, b3⟩ := ih
          exact ⟨a :: m, .cons (by rw [h2]; exact hd) ha b1, by rw [List.map_cons, List.sum_cons, b2], by rw [List.map_cons, b3]⟩
      obtain ⟨m, b1, rfl, rfl⟩ := this
      refine ⟨q, m, r, d, f, by rw [h1]; exact a1, b1, by rw [h2]; exact a3, a4, ⟨.inl (by decide), fun h => by cases h⟩, ?_⟩
      refine Prod.ext rfl ?_
      dsimp only
      rw [List.map_map]
      apply List.map_congr_left
      intro a _
      exact (Prod.ext (hshown _) (hshown _)).symm
  exact ⟨key _ rfl rfl rfl, key _ rfl rfl rfl⟩

/-- `a` or nothing. -/
def optional : Ofst := ⟨some 0, [⟨[⟨3, 3, 0, 1⟩], some 0⟩, ⟨[], some 0⟩], none, none⟩

def letters : SymTable := [(0, Hfst.Basic.epsilon), (3, ['a']), (4, ['b'])]

/-- **C88 is violated: the limit.**  Two results are given where at most one was asked for: after the search has been stopped, the empty path is still
added. -/
theorem C88_limit_violated : ∃ (o : Ofst) (st : SymTable) (r : List Found),
    extractPaths (tropical o st) false false false 1 (-1) 4 [] = .ok r ∧ r.length = 2 :=
  ⟨optional, letters, [(0, []), (0, [(['a'], ['a'])])], by decide +kernel, rfl⟩

/-- **C88 is violated: log weights.**  The empty path is accepted, but it is not among the results. -/
theorem C88_log_violated : ∃ (o : Ofst) (st : SymTable) (r : List Found),
    extractPaths (logarithmic o st) false false false (-1) (-1) 4 [] = .ok r ∧ (logarithmic o st).Yields false false (-1) (0, []) ∧ (0, []) ∉ r := by
  refine ⟨optional, letters, [(0, [(['a'], ['a'])])], by decide +kernel, ?_, by decide⟩
  exact ⟨0, [], 0, _, 0, rfl, .nil, rfl, rfl, ⟨.inl (by decide), fun h => by cases h⟩, rfl⟩

/-- A start with a loop from which nothing can be accepted. -/
def deadLoop : Ofst := ⟨some 0, [⟨[⟨3, 3, 0, 0⟩], none⟩], none, none⟩

theorem deadLoop_search : ∀ (n : Nat) (trail : List Nat) (w : Int) (spv : List (Sym × Sym)) (fs : Flags.FdState) (all : List Nat),
    (tropical deadLoop letters).search ⟨-1, none, false⟩ (collect 1) n trail 0 w spv fs all [] = .undefined
  | 0, _, _, _, _, _ => rfl
  | n + 1, trail, w, spv, fs, all => by
    unfold View.search
    rw [if_neg (by rintro ⟨h, _⟩; cases h)]
    have ih := fun w spv all => deadLoop_search n (0 :: trail) w spv fs all
    by_cases hs : spv = []
    · subst hs
      show (tropical deadLoop letters).arcsLoop _ _ w [] fs [⟨3, 3, 0, 0⟩] _ [] = _
      unfold View.arcsLoop
      simp only [Hfst.Ol.Extraction.flags, View.shownName, Outcome.bind, Bool.false_eq_true, if_false, ih]
    · show (match (if spv = [] then (([] : List Found), true, true) else collect 1 [] (w + 0, spv) false) with
        | (c', goOn, further) => if !goOn || !further then Outcome.ok (goOn, 0 :: all, c') else
            (tropical deadLoop letters).arcsLoop ⟨-1, none, false⟩ ((tropical deadLoop letters).search ⟨-1, none, false⟩ (collect 1) n (0 :: trail)) w spv fs
              [⟨3, 3, 0, 0⟩] (0 :: all) c') = _
      rw [if_neg hs]
      show (tropical deadLoop letters).arcsLoop _ _ w spv fs [⟨3, 3, 0, 0⟩] _ [] = _
      unfold View.arcsLoop
      simp only [Hfst.Ol.Extraction.flags, View.shownName, Outcome.bind, Bool.false_eq_true, if_false, ih]

/-- **C88 is violated: the search does not end.**  One path is asked for from a cyclic transducer that accepts nothing: however far the search goes, it has not
ended. -/
theorem C88_endless_violated : ∃ (o : Ofst) (st : SymTable), ∀ fuel, extractPaths (tropical o st) true false false 1 (-1) fuel [] = .undefined := by
  refine ⟨deadLoop, letters, fun fuel => ?_⟩
  unfold extractPaths
  rw [if_neg (by rintro ⟨_, h, _⟩; cases h)]
  show (tropical deadLoop letters).extract _ _ fuel [] = _
  rw [extract_start (q := 0) rfl, deadLoop_search]
  rfl

/-! ## Examples -/

/-- A loop with `a`, a flag that sets and a flag that asks for another value: `a* @P.X.1@ (@R.X.1@ b | @R.X.2@ a)`. -/
def flagged : Ofst := ⟨some 0, [⟨[⟨3, 3, 1, 0⟩, ⟨5, 5, 0, 1⟩], none⟩, ⟨[⟨6, 6, 0, 2⟩, ⟨7, 7, 0, 3⟩], none⟩, ⟨[⟨4, 4, 0, 4⟩], none⟩, ⟨[⟨3, 3, 0, 4⟩], none⟩, ⟨[], some 2⟩], none, none⟩

def flagLetters : SymTable := [(0, Hfst.Basic.epsilon), (3, ['a']), (4, ['b']), (5, "@P.X.1@".toList), (6, "@R.X.1@".toList), (7, "@R.X.2@".toList)]

example : extractPaths (tropical flagged flagLetters) true true true (-1) 1 20 [] =
    .ok [(3, [(['a'], ['a']), ([], []), ([], []), (['b'], ['b'])]), (2, [([], []), ([], []), (['b'], ['b'])])] := by decide +kernel

theorem flagLetters_ok : (tropical flagged flagLetters).FlagsOK :=
  ⟨by decide +kernel, by decide +kernel, by unfold Flags.NoEmptyValue; decide +kernel⟩

/-- The hypotheses of `C88_found` and `C88_ends` are met. -/
example : ∃ r, extractPaths (tropical flagged flagLetters) true true true 1 1 11 [] = .ok r ∧
    (∀ p ∈ r, (tropical flagged flagLetters).Yields true true 1 p) ∧ (r.length : Int) ≤ 2 := by
  obtain ⟨r, hr⟩ := C88_ends (tropical_ok (o := flagged) (by constructor <;> decide +kernel) flagLetters).1 (cyclic := true) (obey := true) (leaveOut := true) (maxNum := 1) (cycles := 1)
    ⟨fun _ => ⟨0, [], 0, [⟨3, 3, 1, 0⟩], rfl, .nil, (fun h => by cases h), .cons (d := ⟨[⟨3, 3, 1, 0⟩, ⟨5, 5, 0, 1⟩], none⟩) rfl (by decide) .nil⟩, fun _ => rfl⟩
    (fun _ => ⟨flagLetters_ok, by decide +kernel⟩) (by decide) (.inl (by decide)) (fuel := 11) (by decide) []
  refine ⟨r, hr, fun p hp => ?_, (C88_limit_partial (fun _ => flagLetters_ok) (by decide) (by decide) hr).1⟩
  exact ((C88_found (fun _ => flagLetters_ok) (by decide) hr).2.1 p hp).resolve_left (fun h => by cases h)

/-- All paths of a cyclic transducer. -/
example : extractPaths (tropical flagged flagLetters) true false false 0 (-1) 11 [] = .throws :=
  C88_refused (V := tropical flagged flagLetters) ⟨fun _ => ⟨0, [], 0, [⟨3, 3, 1, 0⟩], rfl, .nil, (fun h => by cases h), .cons (d := ⟨[⟨3, 3, 1, 0⟩, ⟨5, 5, 0, 1⟩], none⟩) rfl (by decide) .nil⟩, fun _ => rfl⟩
    ⟨0, [], 0, [⟨3, 3, 1, 0⟩], rfl, .nil, (fun h => by cases h), .cons (d := ⟨[⟨3, 3, 1, 0⟩, ⟨5, 5, 0, 1⟩], none⟩) rfl (by decide) .nil⟩ (by decide) (by decide) 11 []

/-- Two paths are there and one is asked for: one is found. -/
example : ∃ r, extractPaths (tropical flagged flagLetters) true true true 1 1 20 [] = .ok r ∧ r.length = 1 :=
  ⟨[(2, [([], []), ([], []), (['b'], ['b'])])], by decide +kernel, rfl⟩

end Hfst.Extract
