import Verif.Spec.Path
import Mathlib.Tactic.Tauto

/-!
# Basic facts about the graph operations
-/
namespace Hfst.Basic

section Maps
variable {α β : Type} [DecidableEq α]

theorem mapGet_put (m : List (α × β)) (k k' : α) (v : β) :
    mapGet (mapPut m k v) k' = if k' = k then some v else mapGet m k' := by
  unfold mapGet mapPut
  by_cases h : k' = k
  · subst h; simp
  · have h' : ¬ k = k' := fun e => h e.symm
    simp only [List.find?_cons, h', decide_false, h, if_false]
    rw [List.find?_filter]
    congr 2
    funext e
    by_cases he : e.1 = k' <;> simp [he, h]

theorem mapGet_erase (m : List (α × β)) (k k' : α) :
    mapGet (mapErase m k) k' = if k' = k then none else mapGet m k' := by
  unfold mapGet mapErase
  rw [List.find?_filter]
  by_cases h : k' = k
  · subst h
    simp
  · simp only [h, if_false]
    congr 2
    funext e
    by_cases he : e.1 = k' <;> simp [he, h]

theorem mapGet_mem {m : List (α × β)} {k : α} {v : β} (h : mapGet m k = some v) : (k, v) ∈ m := by
  unfold mapGet at h
  rw [Option.map_eq_some_iff] at h
  obtain ⟨e, he, rfl⟩ := h
  have h1 := List.mem_of_find?_eq_some he
  have h2 := List.find?_some he
  simp at h2
  subst h2
  exact h1

theorem mapGet_isSome_of_mem {m : List (α × β)} {k : α} {v : β} (h : (k, v) ∈ m) : (mapGet m k).isSome := by
  unfold mapGet
  rw [Option.isSome_map, List.find?_isSome]
  exact ⟨_, h, by simp⟩

theorem mem_setInsert {s : List α} {x y : α} : y ∈ setInsert s x ↔ y = x ∨ y ∈ s := by
  unfold setInsert
  split
  · constructor
    · exact Or.inr
    · rintro (rfl | h) <;> assumption
  · simp

theorem mem_setErase {s : List α} {x y : α} : y ∈ setErase s x ↔ y ∈ s ∧ y ≠ x := by
  simp [setErase]

theorem mem_foldl_setInsert {xs s : List α} {y : α} : y ∈ xs.foldl setInsert s ↔ y ∈ xs ∨ y ∈ s := by
  induction xs generalizing s with
  | nil => simp
  | cons x xs ih => rw [List.foldl_cons, ih, mem_setInsert, List.mem_cons]; tauto

theorem mem_foldl_setErase {xs s : List α} {y : α} : y ∈ xs.foldl setErase s ↔ y ∈ s ∧ y ∉ xs := by
  induction xs generalizing s with
  | nil => simp
  | cons x xs ih => rw [List.foldl_cons, ih, mem_setErase, List.mem_cons]; tauto

theorem mem_foldl_pairs {ps : List (α × α)} {s : List α} {y : α} :
    y ∈ ps.foldl (fun al p => setInsert (setInsert al p.1) p.2) s ↔ (∃ p ∈ ps, y = p.1 ∨ y = p.2) ∨ y ∈ s := by
  induction ps generalizing s with
  | nil => simp
  | cons p ps ih =>
    rw [List.foldl_cons, ih, mem_setInsert, mem_setInsert]
    simp only [List.mem_cons, exists_eq_or_imp]
    grind

end Maps

namespace Graph

@[simp] theorem length_addStateN (g : Graph) (s : Nat) :
    (g.addStateN s).states.length = max g.states.length (s + 1) := by
  simp [addStateN]; omega

@[simp] theorem arcs_addStateN (g : Graph) (s t : Nat) : (g.addStateN s).arcs t = g.arcs t := by
  simp only [arcs, addStateN, List.getElem?_append, List.getElem?_replicate]
  by_cases h : t < g.states.length
  · simp [h]
  · simp only [h, if_false]
    rw [List.getElem?_eq_none (by omega)]
    split <;> rfl

@[simp] theorem final_addStateN (g : Graph) (s t : Nat) : (g.addStateN s).final t = g.final t := rfl

@[simp] theorem alphabet_addStateN (g : Graph) (s : Nat) : (g.addStateN s).alphabet = g.alphabet := rfl

theorem arcs_eq_nil (g : Graph) {s : Nat} (h : g.states.length ≤ s) : g.arcs s = [] := by
  simp [arcs, List.getElem?_eq_none h]

theorem lt_of_mem_arcs {g : Graph} {s : Nat} {a : Arc} (h : a ∈ g.arcs s) : s < g.states.length := by
  rcases Nat.lt_or_ge s g.states.length with h' | h'
  · exact h'
  · rw [arcs_eq_nil g h'] at h; simp at h

@[simp] theorem length_addState (g : Graph) : g.addState.1.states.length = g.states.length + 1 := by
  simp [addState]

@[simp] theorem addState_snd (g : Graph) : g.addState.2 = g.states.length := rfl

@[simp] theorem arcs_addState (g : Graph) (t : Nat) : g.addState.1.arcs t = g.arcs t := by
  simp only [arcs, addState, List.getElem?_append]
  by_cases h : t < g.states.length
  · simp [h]
  · simp only [h, if_false]
    rw [List.getElem?_eq_none (l := g.states) (by omega)]
    rcases t - g.states.length with _ | n <;> simp

@[simp] theorem final_addState (g : Graph) (t : Nat) : g.addState.1.final t = g.final t := rfl

@[simp] theorem alphabet_addState (g : Graph) : g.addState.1.alphabet = g.alphabet := rfl

theorem arcs_modify (g : Graph) (s t : Nat) (f : List Arc → List Arc) (hs : s < g.states.length) :
    ({ g with states := g.states.modify s f } : Graph).arcs t = if t = s then f (g.arcs s) else g.arcs t := by
  simp only [arcs, List.getElem?_modify]
  by_cases h : t = s
  · subst h
    simp [List.getElem?_eq_getElem hs]
  · have h' : ¬ s = t := fun e => h e.symm
    simp [h, h']

theorem arcs_map (g : Graph) (f : List Arc → List Arc) (hf : f [] = []) (s : Nat) (al : List Sym) :
    ({ g with states := g.states.map f, alphabet := al } : Graph).arcs s = f (g.arcs s) := by
  simp only [arcs, List.getElem?_map]
  cases g.states[s]? <;> simp [hf]

@[simp] theorem length_addTransition (g : Graph) (s : Nat) (a : Arc) (b : Bool) :
    (g.addTransition s a b).states.length = max (max g.states.length (s + 1)) (a.target + 1) := by
  unfold addTransition
  cases b <;> simp [addSymbol]

theorem arcs_addTransition (g : Graph) (s : Nat) (a : Arc) (b : Bool) (t : Nat) :
    (g.addTransition s a b).arcs t = if t = s then g.arcs s ++ [a] else g.arcs t := by
  unfold addTransition
  cases b
  · simp only [Bool.false_eq_true, if_false]
    rw [arcs_modify _ _ _ _ (by simp; omega)]
    simp
  · simp only [if_true]
    rw [arcs_modify _ _ _ _ (by simp [addSymbol]; omega)]
    have e : ∀ u, ((((g.addStateN s).addStateN a.target).addSymbol a.inp).addSymbol a.out).arcs u = g.arcs u := by
      intro u
      show ((g.addStateN s).addStateN a.target).arcs u = _
      simp
    simp [e]

@[simp] theorem final_addTransition (g : Graph) (s : Nat) (a : Arc) (b : Bool) (t : Nat) :
    (g.addTransition s a b).final t = g.final t := by
  unfold addTransition; cases b <;> rfl

theorem mem_alphabet_addTransition (g : Graph) (s : Nat) (a : Arc) (b : Bool) (x : Sym) :
    x ∈ (g.addTransition s a b).alphabet ↔ x ∈ g.alphabet ∨ (b = true ∧ (x = a.inp ∨ x = a.out)) := by
  unfold addTransition
  cases b
  · simp
  · simp only [if_true, addSymbol, mem_setInsert, alphabet_addStateN, true_and]; tauto

theorem mem_symbolsUsed (g : Graph) (x : Sym) :
    x ∈ g.symbolsUsed ↔ ∃ s, ∃ a ∈ g.arcs s, x = a.inp ∨ x = a.out := by
  simp only [symbolsUsed, List.mem_flatMap, List.mem_cons, List.not_mem_nil, or_false]
  constructor
  · rintro ⟨l, hl, a, ha, h⟩
    obtain ⟨s, hs, rfl⟩ := List.getElem_of_mem hl
    exact ⟨s, a, by simpa [arcs, List.getElem?_eq_getElem hs] using ha, h⟩
  · rintro ⟨s, a, ha, h⟩
    have hs := lt_of_mem_arcs ha
    refine ⟨g.states[s], List.getElem_mem hs, a, ?_, h⟩
    simpa [arcs, List.getElem?_eq_getElem hs] using ha

theorem mem_flatten_states (g : Graph) (a : Arc) : a ∈ g.states.flatten ↔ ∃ s, a ∈ g.arcs s := by
  simp only [List.mem_flatten]
  constructor
  · rintro ⟨l, hl, ha⟩
    obtain ⟨s, hs, rfl⟩ := List.getElem_of_mem hl
    exact ⟨s, by simpa [arcs, List.getElem?_eq_getElem hs] using ha⟩
  · rintro ⟨s, ha⟩
    have hs := lt_of_mem_arcs ha
    refine ⟨g.states[s], List.getElem_mem hs, ?_⟩
    simpa [arcs, List.getElem?_eq_getElem hs] using ha

@[simp] theorem length_setFinal (g : Graph) (s : Nat) (w : Int) :
    (g.setFinal s w).states.length = max g.states.length (s + 1) := by
  simp [setFinal]

@[simp] theorem arcs_setFinal (g : Graph) (s : Nat) (w : Int) (t : Nat) : (g.setFinal s w).arcs t = g.arcs t := by
  show (g.addStateN s).arcs t = _
  simp

theorem final_setFinal (g : Graph) (s : Nat) (w : Int) (t : Nat) :
    (g.setFinal s w).final t = if t = s then some w else g.final t := by
  simp only [setFinal, final, mapGet_put]; rfl

/-! ## Copying one graph into another -/

/-- Result of appending transitions `l` (each with its source) one after the other. -/
theorem foldl_addTransition_arcs (l : List (Nat × Arc)) (g : Graph) (t : Nat) :
    (l.foldl (fun g e => g.addTransition e.1 e.2) g).arcs t =
      g.arcs t ++ (l.filter (fun e => e.1 = t)).map (·.2) := by
  induction l generalizing g with
  | nil => simp
  | cons e l ih =>
    rw [List.foldl_cons, ih, arcs_addTransition]
    by_cases h : t = e.1
    · subst h; simp
    · have h' : ¬ e.1 = t := fun x => h x.symm
      simp [h, h']

theorem foldl_addTransition_final (l : List (Nat × Arc)) (g : Graph) (t : Nat) :
    (l.foldl (fun g e => g.addTransition e.1 e.2) g).final t = g.final t := by
  induction l generalizing g with
  | nil => rfl
  | cons e l ih => rw [List.foldl_cons, ih, final_addTransition]

theorem foldl_addTransition_length_ge (l : List (Nat × Arc)) (g : Graph) :
    g.states.length ≤ (l.foldl (fun g e => g.addTransition e.1 e.2) g).states.length ∧
    ∀ e ∈ l, e.1 < (l.foldl (fun g e => g.addTransition e.1 e.2) g).states.length ∧
      e.2.target < (l.foldl (fun g e => g.addTransition e.1 e.2) g).states.length := by
  induction l generalizing g with
  | nil => simp
  | cons e l ih =>
    rw [List.foldl_cons]
    have h := ih (g.addTransition e.1 e.2)
    rw [length_addTransition] at h
    refine ⟨by omega, ?_⟩
    intro e' he'
    rcases List.mem_cons.mp he' with rfl | he'
    · omega
    · exact h.2 e' he'

theorem foldl_addTransition_alphabet (l : List (Nat × Arc)) (g : Graph) (x : Sym) :
    x ∈ (l.foldl (fun g e => g.addTransition e.1 e.2) g).alphabet ↔
      x ∈ g.alphabet ∨ ∃ e ∈ l, x = e.2.inp ∨ x = e.2.out := by
  induction l generalizing g with
  | nil => simp
  | cons e l ih =>
    rw [List.foldl_cons, ih, mem_alphabet_addTransition]
    simp only [List.mem_cons, exists_eq_or_imp, true_and]
    grind

/-- The transitions `copyArcs` adds, with their sources. -/
def copyList (h : Graph) (offset : Nat) : List (Nat × Arc) :=
  h.states.zipIdx.flatMap fun e => e.1.map fun a => (e.2 + offset, { a with target := a.target + offset })

/-- The transitions `copyFinals` adds, with their sources. -/
def finalList (h : Graph) (offset target : Nat) : List (Nat × Arc) :=
  h.finals.map fun e => (e.1 + offset, { target := target, inp := epsilon, out := epsilon, weight := e.2 })

theorem copyArcs_eq (g h : Graph) (o : Nat) :
    copyArcs g h o = (copyList h o).foldl (fun g e => g.addTransition e.1 e.2) g := by
  unfold copyArcs copyList
  rw [List.foldl_flatMap]
  congr 1
  funext g e
  rw [List.foldl_map]

theorem copyFinals_eq (g h : Graph) (o t : Nat) :
    copyFinals g h o t = (finalList h o t).foldl (fun g e => g.addTransition e.1 e.2) g := by
  unfold copyFinals finalList
  rw [List.foldl_map]

theorem mem_copyList {h : Graph} {o : Nat} {e : Nat × Arc} :
    e ∈ copyList h o ↔ ∃ i, ∃ a ∈ h.arcs i, e = (i + o, { a with target := a.target + o }) := by
  unfold copyList
  simp only [List.mem_flatMap, List.mem_map, Prod.exists, List.mem_zipIdx_iff_getElem?]
  constructor
  · rintro ⟨l, i, hl, a, ha, rfl⟩
    exact ⟨i, a, by simpa [arcs, hl] using ha, rfl⟩
  · rintro ⟨i, a, ha, rfl⟩
    have hi := lt_of_mem_arcs ha
    refine ⟨h.states[i], i, by simp [List.getElem?_eq_getElem hi], a, ?_, rfl⟩
    simpa [arcs, List.getElem?_eq_getElem hi] using ha

theorem mem_finalList {h : Graph} {o t : Nat} {e : Nat × Arc} :
    e ∈ finalList h o t ↔ ∃ f ∈ h.finals,
      e = (f.1 + o, { target := t, inp := epsilon, out := epsilon, weight := f.2 }) := by
  simp only [finalList, List.mem_map, eq_comm]

end Graph
end Hfst.Basic
