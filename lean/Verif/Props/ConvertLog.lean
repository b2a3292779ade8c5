import Verif.Props.Convert

/-!
# Property C82: conversion between HFST transducers and OpenFst transducers with log weights
-/
namespace Hfst.Conv
open Hfst.Basic
open Hfst.Basic.Graph

/-! ## The import -/

theorem logLabel_eq (st : SymTable) (n : Nat) : logLabel st n = labelSymbol st n := rfl

/-- The symbols that may come into the alphabet. -/
def FromTables (i j : SymTable) (x : Sym) : Prop := x = epsilon ∨ ∃ n, n ≠ 0 ∧ ((n, x) ∈ i ∨ (n, x) ∈ j)

theorem labelSymbol_mem {st : SymTable} {n : Nat} (h : labelSymbol st n ≠ []) : labelSymbol st n = epsilon ∨ n ≠ 0 ∧ (n, labelSymbol st n) ∈ st := by
  unfold labelSymbol at *
  split
  · exact .inl rfl
  · rename_i hn
    rw [if_neg hn] at h
    refine .inr ⟨hn, ?_⟩
    unfold SymTable.symbol at *
    cases e : mapGet st n with
    | none => rw [e] at h; exact absurd rfl h
    | some x => exact mapGet_mem e

/-- Both labels of the transition have a name. -/
def ArcNamed (i j : SymTable) (a : OArc) : Prop := labelSymbol i a.ilabel ≠ [] ∧ labelSymbol j a.olabel ≠ []

theorem logImportArcs_spec {i j : SymTable} {start origin : Nat} (l : List OArc) (g : Graph) (hf : ∀ a ∈ l, ArcNamed i j a) :
    ∃ g', logImportArcs i j start origin l g = .ok g' ∧
      (∀ u, g'.arcs u = if u = origin then g.arcs u ++ l.map (image (swap (some start)) (labelSymbol i) (labelSymbol j)) else g.arcs u) ∧
      (∀ u, g'.final u = g.final u) ∧ (∀ x ∈ g.alphabet, x ∈ g'.alphabet) ∧ (∀ x ∈ g'.alphabet, x ∈ g.alphabet ∨ FromTables i j x) ∧
      (WF g → WF g') ∧ g.states.length ≤ g'.states.length ∧
      ∀ n, g.states.length ≤ n → origin < n → (∀ a ∈ l, swap (some start) a.next < n) → g'.states.length ≤ n := by
  induction l generalizing g with
  | nil => exact ⟨g, rfl, by simp, fun _ => rfl, fun _ h => h, fun _ h => .inl h, fun h => h, Nat.le_refl _, fun n h _ _ => h⟩
  | cons a l ih =>
    obtain ⟨e1, e2⟩ := hf a (by simp)
    obtain ⟨g', h1, h2, h3, h4, h4', h5, h6, h7⟩ :=
      ih (g.addTransition origin (image (swap (some start)) (labelSymbol i) (labelSymbol j) a)) fun b hb => hf b (by simp [hb])
    refine ⟨g', ?_, ?_, ?_, ?_, ?_, ?_, ?_, ?_⟩
    · rw [logImportArcs, logLabel_eq, logLabel_eq, if_neg (by rw [not_or]; exact ⟨e1, e2⟩), logSwap_eq]
      exact h1
    · intro u
      rw [h2, arcs_addTransition]
      by_cases hu : u = origin
      · subst hu; simp
      · simp [hu]
    · intro u
      rw [h3, final_addTransition]
    · intro x hx
      exact h4 x ((mem_alphabet_addTransition ..).mpr (.inl hx))
    · intro x hx
      rcases h4' x hx with h | h
      · rcases (mem_alphabet_addTransition ..).mp h with h | ⟨_, h⟩
        · exact .inl h
        · refine .inr ?_
          rcases h with rfl | rfl
          · rcases labelSymbol_mem e1 with h | ⟨hn, h⟩
            · exact .inl h
            · exact .inr ⟨_, hn, .inl h⟩
          · rcases labelSymbol_mem e2 with h | ⟨hn, h⟩
            · exact .inl h
            · exact .inr ⟨_, hn, .inr h⟩
      · exact .inr h
    · exact fun hw => h5 (hw.addTransition _ _ _)
    · rw [length_addTransition] at h6
      omega
    · intro n hn ho hl
      refine h7 n ?_ ho fun b hb => hl b (by simp [hb])
      rw [length_addTransition]
      have := hl a (by simp)
      show max (max _ _) (swap (some start) a.next + 1) ≤ n
      omega

theorem logImportState_spec {i j : SymTable} {start : Nat} (e : Nat × OState) (hf : ∀ a ∈ e.2.arcs, ArcNamed i j a) (g : Graph) :
    ∃ g', logImportState i j start e.1 e.2 g = .ok g' ∧
      Step (swap (some start)) (labelSymbol i) (labelSymbol j) (FromTables i j) False e g g' := by
  obtain ⟨g₁, h1, h2, h3, h4, h4', h5, h6, h7⟩ := logImportArcs_spec (start := start) (origin := swap (some start) e.1) e.2.arcs g hf
  unfold logImportState
  rw [logSwap_eq, h1]
  refine ⟨_, rfl, ?_⟩
  cases hfin : e.2.final with
  | none =>
    dsimp only
    refine ⟨h2, fun u => ?_, h4, h4', h5, h6, fun n hn he hσ hl => h7 n hn hσ hl, fun h => h.elim⟩
    rw [h3, hfin]; simp
  | some w =>
    dsimp only
    refine ⟨fun u => ?_, fun u => ?_, h4, h4', fun hw => (h5 hw).setFinal _ _, ?_, fun n hn he hσ hl => ?_, fun h => h.elim⟩
    · rw [arcs_setFinal, h2]
    · rw [final_setFinal, h3, hfin]
    · rw [length_setFinal]; omega
    · rw [length_setFinal]
      have := h7 n hn hσ hl
      omega

theorem logImportStates_run (i j : SymTable) (start : Nat) (s : Nat) (qs : List OState) (g : Graph) :
    logImportStates i j start s qs g =
      run (fun e g => logImportState i j start e.1 e.2 g) ((numbered s qs).filter fun e => decide (e.1 ≠ start)) g := by
  induction qs generalizing s g with
  | nil => rfl
  | cons q qs ih =>
    rw [logImportStates, numbered]
    by_cases h : s = start
    · rw [if_pos h, List.filter_cons_of_neg (by simp [h])]
      exact ih _ _
    · rw [if_neg h, List.filter_cons_of_pos (by simp [h]), run]
      dsimp only
      cases logImportState i j start s q g with
      | ok g' => exact ih _ _
      | throws => rfl
      | undefined => rfl

/-- Converting an OpenFst transducer with log weights to HFST keeps what it accepts with which weights, if all labels have names.  Label
0 is epsilon whatever its name is, and the symbol table for the output is used if there is one.  The alphabet becomes the symbols of the
symbol tables with the special symbols. -/
theorem C82_import (o : Ofst) (i : SymTable) (s : Nat) (hi : o.input = some i) (hs : o.start = some s) (hw : OWF o)
    (hnamed : ∀ st ∈ o.states, ∀ a ∈ st.arcs, labelSymbol i a.ilabel ≠ [] ∧ labelSymbol (o.output.getD i) a.olabel ≠ []) (header : Bool) :
    ∃ g, fromLog o header = .ok g ∧ WF g ∧ (∀ l w, Accepts g l w ↔ OAccepts o i (o.output.getD i) l w) ∧
      ∀ x, x ∈ g.alphabet ↔ x = epsilon ∨ x = unknown ∨ x = identity ∨ ∃ n, n ≠ 0 ∧ ((n, x) ∈ i ∨ (n, x) ∈ o.output.getD i) := by
  generalize hj : o.output.getD i = j at *
  have hlt := hw.start s hs
  let L : List (Nat × OState) := (s, o.states[s]) :: (numbered 0 o.states).filter fun e => decide (e.1 ≠ s)
  have hL : (L.map (·.1)).Nodup := by
    rw [List.map_cons, List.nodup_cons]
    constructor
    · intro h
      obtain ⟨e, he, h⟩ := List.mem_map.mp h
      have := (List.mem_filter.mp he).2
      simp at this
      exact this h
    · exact ((numbered_nodup 0 o.states).sublist ((List.filter_sublist (l := numbered 0 o.states)).map _))
  have hmemL : ∀ e, e ∈ L ↔ o.states[e.1]? = some e.2 := by
    rintro ⟨n, q⟩
    rw [List.mem_cons, List.mem_filter, mem_numbered]
    dsimp only
    rw [Nat.sub_zero]
    constructor
    · rintro (h | h)
      · cases h; exact List.getElem?_eq_getElem hlt
      · exact h.1.2
    · intro h
      by_cases hn : n = s
      · subst hn
        rw [List.getElem?_eq_getElem hlt] at h
        exact .inl (by rw [Option.some.inj h])
      · exact .inr ⟨⟨Nat.zero_le _, h⟩, by simpa using hn⟩
  obtain ⟨g, e, h1, h2, h3, h4, h5, _, _, _⟩ := run_spec (swap_inj (some s)) (fun e g => logImportState i j s e.1 e.2 g) L hL
    (fun e he g => logImportState_spec e (fun a ha => hnamed e.2 (List.mem_of_getElem? ((hmemL e).mp he)) a ha) g) Graph.init
  have hrun : fromLog o header = .ok (addTable (addTable g i) j) := by
    unfold fromLog
    rw [hi, hs]
    dsimp only
    rw [hj, List.getElem?_eq_getElem hlt]
    dsimp only
    rw [run] at e
    dsimp only at e
    cases hq : logImportState i j s s o.states[s] Graph.init with
    | ok g₁ =>
      rw [hq] at e
      dsimp only [Outcome.bind] at e ⊢
      rw [logImportStates_run, e]
    | throws => rw [hq] at e; cases e
    | undefined => rw [hq] at e; cases e
  obtain ⟨a1, a2, a3, a4⟩ := addTable_spec g i
  obtain ⟨b1, b2, b3, b4⟩ := addTable_spec (addTable g i) j
  refine ⟨_, hrun, ((h5 WF.init).alpha _).alpha _, fun l w => ?_, fun x => ?_⟩
  · have c : Copied o (swap (some s)) (labelSymbol i) (labelSymbol j) (addTable (addTable g i) j) := by
      constructor
      · intro u st hu
        rw [b1, a1, (h1 (u, st) ((hmemL _).mpr hu)).1, init_arcs]
        rfl
      · intro u st hu
        rw [b2, a2, (h1 (u, st) ((hmemL _).mpr hu)).2, init_final]
        dsimp only
        cases st.final <;> rfl
    exact c.accepts hw hs (swap_start s) (fun _ _ _ _ => ⟨rfl, rfl⟩) l w
  · rw [b3, a3]
    have hin : x ∈ Graph.init.alphabet ↔ x = epsilon ∨ x = unknown ∨ x = identity := by simp [Graph.init]
    constructor
    · rintro ((h | ⟨n, h⟩) | ⟨n, h⟩)
      · rcases h4 x h with h | h | ⟨n, h⟩
        · rcases hin.mp h with h | h | h
          · exact .inl h
          · exact .inr (.inl h)
          · exact .inr (.inr (.inl h))
        · exact .inl h
        · exact .inr (.inr (.inr ⟨n, h⟩))
      · exact .inr (.inr (.inr ⟨n, h.1, .inl h.2⟩))
      · exact .inr (.inr (.inr ⟨n, h.1, .inr h.2⟩))
    · rintro (h | h | h | ⟨n, h, h' | h'⟩)
      · exact .inl (.inl (h3 x (hin.mpr (.inl h))))
      · exact .inl (.inl (h3 x (hin.mpr (.inr (.inl h)))))
      · exact .inl (.inl (h3 x (hin.mpr (.inr (.inr h)))))
      · exact .inl (.inr ⟨n, h, h'⟩)
      · exact .inr ⟨n, h, h'⟩

theorem logImportArcs_throws {i j : SymTable} {start origin : Nat} (l : List OArc) (g : Graph) (h : ∃ a ∈ l, ¬ ArcNamed i j a) :
    logImportArcs i j start origin l g = .throws := by
  induction l generalizing g with
  | nil => simp at h
  | cons a l ih =>
    rw [logImportArcs]
    split
    · rfl
    · rename_i hn
      rw [not_or] at hn
      obtain ⟨b, hb, hbad⟩ := h
      rcases List.mem_cons.mp hb with rfl | hb
      · exact absurd hn hbad
      · exact ih _ ⟨b, hb, hbad⟩

theorem run_throws {step : Nat × OState → Graph → Outcome Graph} {bad : Nat × OState → Prop} (L : List (Nat × OState)) (g : Graph)
    (h1 : ∀ e ∈ L, bad e → ∀ g, step e g = .throws) (h2 : ∀ e ∈ L, ¬ bad e → ∀ g, ∃ g', step e g = .ok g') (h : ∃ e ∈ L, bad e) :
    run step L g = .throws := by
  induction L generalizing g with
  | nil => simp at h
  | cons e L ih =>
    rw [run]
    by_cases hb : bad e
    · rw [h1 e (by simp) hb g]; rfl
    · obtain ⟨g', e'⟩ := h2 e (by simp) hb g
      rw [e']
      obtain ⟨b, hbm, hbad⟩ := h
      rcases List.mem_cons.mp hbm with rfl | hbm
      · exact absurd hbad hb
      · exact ih g' (fun x hx => h1 x (by simp [hx])) (fun x hx => h2 x (by simp [hx])) ⟨b, hbm, hbad⟩

/-- A transducer with a label that has no name is refused, and so is one without a symbol table for the input that has a start.  A
transducer without a start becomes one that accepts nothing, if there is a symbol table for the input. -/
theorem C82_refused (o : Ofst) (hw : OWF o) (header : Bool) :
    (∀ i s, o.input = some i → o.start = some s →
      (∃ st ∈ o.states, ∃ a ∈ st.arcs, labelSymbol i a.ilabel = [] ∨ labelSymbol (o.output.getD i) a.olabel = []) →
      fromLog o header = .throws) ∧
    (o.input = none → (header = true ∨ o.start ≠ none) → fromLog o header = .throws) ∧
    (∀ i, o.input = some i → o.start = none → ∃ g, fromLog o header = .ok g ∧ ∀ l w, ¬ Accepts g l w) := by
  refine ⟨?_, ?_, ?_⟩
  · intro i s hi hs
    generalize hj : o.output.getD i = j
    rintro ⟨st, hst, a, ha, hbad⟩
    have hlt := hw.start s hs
    have hbad : ¬ ArcNamed i j a := by
      rintro ⟨h1, h2⟩
      rcases hbad with h | h
      · exact h1 h
      · exact h2 h
    obtain ⟨u, hu⟩ := List.mem_iff_getElem?.mp hst
    let bad : Nat × OState → Prop := fun e => ∃ a ∈ e.2.arcs, ¬ ArcNamed i j a
    have k1 : ∀ e, bad e → ∀ g, logImportState i j s e.1 e.2 g = .throws := by
      intro e he g
      unfold logImportState
      rw [logImportArcs_throws _ _ he]
      rfl
    have k2 : ∀ e, ¬ bad e → ∀ g, ∃ g', logImportState i j s e.1 e.2 g = .ok g' := by
      intro e he g
      obtain ⟨g', h, _⟩ := logImportState_spec (i := i) (j := j) (start := s) e (fun a ha => by
        by_contra hc
        exact he ⟨a, ha, hc⟩) g
      exact ⟨g', h⟩
    unfold fromLog
    rw [hi, hs]
    dsimp only
    rw [hj, List.getElem?_eq_getElem hlt]
    dsimp only
    by_cases hb : bad (s, o.states[s])
    · rw [k1 _ hb]; rfl
    · obtain ⟨g₁, e₁⟩ := k2 _ hb Graph.init
      rw [e₁]
      dsimp only [Outcome.bind]
      rw [logImportStates_run, run_throws (bad := bad) _ _ (fun e _ h => k1 e h) (fun e _ h => k2 e h)]
      refine ⟨(u, st), List.mem_filter.mpr ⟨mem_numbered.mpr ⟨Nat.zero_le _, by simpa using hu⟩, ?_⟩, a, ha, hbad⟩
      have : u ≠ s := by
        rintro rfl
        rw [List.getElem?_eq_getElem hlt] at hu
        exact hb ⟨a, by rw [Option.some.inj hu]; exact ha, hbad⟩
      simpa using this
  · intro hi h
    unfold fromLog
    rw [hi]
    cases hs : o.start with
    | none =>
      rcases h with h | h
      · simp [h]
      · exact absurd hs h
    | some s => rfl
  · intro i hi hs
    unfold fromLog
    rw [hi, hs]
    refine ⟨_, rfl, ?_⟩
    rintro l w ⟨q, v, f, _, hq, _⟩
    have : Graph.init.final q = some f := by
      cases header
      · exact hq
      · exact hq
    rw [init_final] at this
    cases this

/-! ## The export -/

theorem addNext_spec {st : SymTable} (hok : TableOk st) {x : Sym} (hx : x ≠ []) :
    TableOk (st.addNext x).1 ∧ ((st.addNext x).2, x) ∈ (st.addNext x).1 ∧ (∀ e ∈ st, e ∈ (st.addNext x).1) ∧
      ∀ e ∈ (st.addNext x).1, e ∈ st ∨ e.2 = x := by
  unfold SymTable.addNext
  cases hl : st.label x with
  | some n =>
    refine ⟨hok, ?_, fun _ h => h, fun _ h => .inl h⟩
    unfold SymTable.label at hl
    obtain ⟨e, he, rfl⟩ := Option.map_eq_some_iff.mp hl
    have h2 := List.find?_some he
    simp only [decide_eq_true_eq] at h2
    rw [← h2]
    exact List.mem_of_find?_eq_some he
  | none =>
    have hnew := label_none.mp hl
    have hbig : ∀ (l : SymTable) (m : Nat), m ≤ l.foldl (fun m e => max m (e.1 + 1)) m ∧
        ∀ e ∈ l, e.1 < l.foldl (fun m e => max m (e.1 + 1)) m := by
      intro l
      induction l with
      | nil => simp
      | cons e l ih =>
        intro m
        rw [List.foldl_cons]
        obtain ⟨h1, h2⟩ := ih (max m (e.1 + 1))
        refine ⟨by omega, fun e' he' => ?_⟩
        rcases List.mem_cons.mp he' with rfl | he'
        · omega
        · exact h2 e' he'
    have hb := (hbig st 0).2
    dsimp only
    generalize st.foldl (fun m e => max m (e.1 + 1)) 0 = n at *
    refine ⟨⟨?_, ?_, ?_⟩, by simp, fun e he => List.mem_append_left _ he, fun e he => ?_⟩
    · rw [List.map_append, List.map_cons, List.map_nil]
      refine List.nodup_append.mpr ⟨hok.labels, by simp, ?_⟩
      rintro a ha b hb' rfl
      rw [List.mem_singleton] at hb'
      subst hb'
      obtain ⟨e', he', h⟩ := List.mem_map.mp ha
      have := hb e' he'
      omega
    · rw [List.map_append, List.map_cons, List.map_nil]
      refine List.nodup_append.mpr ⟨hok.symbols, by simp, ?_⟩
      rintro a ha b hb' rfl
      rw [List.mem_singleton] at hb'
      subst hb'
      exact hnew ha
    · rw [List.map_append, List.mem_append, not_or]
      exact ⟨hok.nonempty, by simpa using Ne.symm hx⟩
    · rcases List.mem_append.mp he with he | he
      · exact .inl he
      · rw [List.mem_singleton.mp he]; exact .inr rfl

/-- The map of states is one to one and onto. -/
structure MapOk (m : List (Nat × Nat)) (n : Nat) : Prop where
  zero : mapGet m 0 = some 0
  bound : ∀ s k, mapGet m s = some k → k < n
  inj : ∀ s s' k, mapGet m s = some k → mapGet m s' = some k → s = s'
  onto : ∀ k, k < n → ∃ s, mapGet m s = some k

theorem stateId_spec {m : List (Nat × Nat)} {ss : List OState} (h : MapOk m ss.length) (s : Nat) :
    ∃ m' ss' k, stateId m ss s = (m', ss', k) ∧ MapOk m' ss'.length ∧ mapGet m' s = some k ∧
      (∀ u v, mapGet m u = some v → mapGet m' u = some v) ∧ (∀ u v, mapGet m' u = some v → mapGet m u = some v ∨ mapGet m u = none ∧ u = s) ∧
      (∀ (n : Nat) st, ss[n]? = some st → ss'[n]? = some st) ∧
      ∀ (n : Nat) st, ss'[n]? = some st → ss[n]? = some st ∨ (mapGet m' s = some n ∧ mapGet m s = none ∧ st = ⟨[], none⟩) := by
  unfold stateId
  cases e : mapGet m s with
  | some k => exact ⟨m, ss, k, rfl, h, e, fun _ _ h => h, fun _ _ h => .inl h, fun _ _ h => h, fun _ _ h => .inl h⟩
  | none =>
    have hget : ∀ u, mapGet (mapPut m s ss.length) u = if u = s then some ss.length else mapGet m u := fun u => by
      rw [mapGet_put]
    have hs0 : (0 : Nat) ≠ s := by
      rintro rfl
      rw [h.zero] at e
      cases e
    refine ⟨_, _, _, rfl, ⟨?_, ?_, ?_, ?_⟩, by rw [hget, if_pos rfl], ?_, ?_, ?_, ?_⟩
    · rw [hget, if_neg hs0]; exact h.zero
    · intro u k hu
      rw [hget] at hu
      rw [List.length_append, List.length_singleton]
      split at hu
      · cases hu; omega
      · have := h.bound u k hu; omega
    · intro u u' k hu hu'
      rw [hget] at hu hu'
      split at hu <;> split at hu'
      · simp_all
      · cases hu
        have := h.bound _ _ hu'
        omega
      · cases hu'
        have := h.bound _ _ hu
        omega
      · exact h.inj _ _ _ hu hu'
    · intro k hk
      rw [List.length_append, List.length_singleton] at hk
      by_cases hk' : k = ss.length
      · exact ⟨s, by rw [hget, if_pos rfl, hk']⟩
      · obtain ⟨u, hu⟩ := h.onto k (by omega)
        refine ⟨u, ?_⟩
        rw [hget, if_neg, hu]
        rintro rfl
        rw [e] at hu
        cases hu
    · intro u v hu
      rw [hget, if_neg, hu]
      rintro rfl
      rw [e] at hu
      cases hu
    · intro u v hu
      rw [hget] at hu
      split at hu
      · rename_i hus; subst hus; exact .inr ⟨e, rfl⟩
      · exact .inl hu
    · intro n st hn
      rw [List.getElem?_append_left (List.getElem?_eq_some_iff.mp hn).1]
      exact hn
    · intro n st hn
      by_cases hlt : n < ss.length
      · rw [List.getElem?_append_left hlt] at hn
        exact .inl hn
      · rw [List.getElem?_append_right (by omega)] at hn
        have hn' : n = ss.length := by
          have := (List.getElem?_eq_some_iff.mp hn).1
          rw [List.length_singleton] at this
          omega
        subst hn'
        simp at hn
        exact .inr ⟨by rw [hget, if_pos rfl], rfl, hn.symm⟩

/-- The transition `b` is the copy of the transition `a`. -/
def Copy (m : List (Nat × Nat)) (st : SymTable) (a : Arc) (b : OArc) : Prop :=
  mapGet m a.target = some b.next ∧ (b.ilabel, a.inp) ∈ st ∧ (b.olabel, a.out) ∈ st ∧ b.weight = a.weight

/-- What holds in the loops when the transitions `A` and the final weights `F` have been copied. -/
structure LogInv (c : LogState) (A : List Arc) (F : Nat → Option Int) : Prop where
  map : MapOk c.map c.states.length
  table : TableOk c.table
  eps : (0, epsilon) ∈ c.table
  first : ∃ q, c.states[0]? = some q ∧ List.Forall₂ (Copy c.map c.table) A q.arcs
  rest : ∀ k q, k ≠ 0 → c.states[k]? = some q → q.arcs = []
  finals : ∀ s k q, mapGet c.map s = some k → c.states[k]? = some q → q.final = F s
  outside : ∀ s, mapGet c.map s = none → F s = none

theorem Copy.mono {m m' : List (Nat × Nat)} {st st' : SymTable} (hm : ∀ u v, mapGet m u = some v → mapGet m' u = some v)
    (hst : ∀ e ∈ st, e ∈ st') {a : Arc} {b : OArc} (h : Copy m st a b) : Copy m' st' a b :=
  ⟨hm _ _ h.1, hst _ h.2.1, hst _ h.2.2.1, h.2.2.2⟩

/-- Looking up a state keeps what holds. -/
theorem LogInv.stateId {c : LogState} {A : List Arc} {F : Nat → Option Int} (h : LogInv c A F) (s : Nat) {m : List (Nat × Nat)} {ss : List OState} {k : Nat}
    (e : Conv.stateId c.map c.states s = (m, ss, k)) :
    LogInv ⟨m, ss, c.table⟩ A F ∧ mapGet m s = some k ∧ ∀ u v, mapGet c.map u = some v → mapGet m u = some v := by
  obtain ⟨m', ss', k', e', h1, h2, h3, h4, h5, h6⟩ := stateId_spec h.map s
  rw [e] at e'
  cases e'
  refine ⟨⟨h1, h.table, h.eps, ?_, ?_, ?_, ?_⟩, h2, h3⟩
  · obtain ⟨q, q1, q2⟩ := h.first
    exact ⟨q, h5 _ _ q1, q2.imp fun _ _ hc => hc.mono h3 fun _ h => h⟩
  · intro n q hn hq
    rcases h6 n q hq with hq | ⟨_, _, rfl⟩
    · exact h.rest n q hn hq
    · rfl
  · intro u n q hu hq
    rcases h6 n q hq with hq | ⟨hn, hs, rfl⟩
    · rcases h4 u n hu with hu' | ⟨hu', rfl⟩
      · exact h.finals u n q hu' hq
      · obtain ⟨v, hv⟩ := h.map.onto n (List.getElem?_eq_some_iff.mp hq).1
        have := h1.inj u v n hu (h3 _ _ hv)
        subst this
        rw [hv] at hu'
        cases hu'
    · have := h1.inj _ _ _ hu hn
      subst this
      exact (h.outside u hs).symm
  · intro u hu
    refine h.outside u ?_
    cases hv : mapGet c.map u with
    | none => rfl
    | some v =>
      have := h3 u v hv
      rw [hu] at this
      cases this

theorem LogInv.addNext {c : LogState} {A : List Arc} {F : Nat → Option Int} (h : LogInv c A F) {x : Sym} (hx : x ≠ []) :
    LogInv ⟨c.map, c.states, (c.table.addNext x).1⟩ A F ∧ ((c.table.addNext x).2, x) ∈ (c.table.addNext x).1 ∧
      ∀ e ∈ c.table, e ∈ (c.table.addNext x).1 := by
  obtain ⟨h1, h2, h3, _⟩ := addNext_spec h.table hx
  obtain ⟨q, q1, q2⟩ := h.first
  exact ⟨⟨h.map, h1, h3 _ h.eps, ⟨q, q1, q2.imp fun _ _ hc => hc.mono (fun _ _ h => h) h3⟩, h.rest, h.finals, h.outside⟩, h2, h3⟩

theorem logArc_inv {c : LogState} {A : List Arc} {F : Nat → Option Int} (h : LogInv c A F) {a : Arc} (hi : a.inp ≠ []) (ho : a.out ≠ []) :
    LogInv (logArc 0 c a) (A ++ [a]) F := by
  unfold logArc
  obtain ⟨m1, ss1, p, e1⟩ : ∃ m ss k, Conv.stateId c.map c.states 0 = (m, ss, k) := ⟨_, _, _, rfl⟩
  obtain ⟨k1, k2, _⟩ := h.stateId 0 e1
  have hp : p = 0 := by
    rw [k1.map.zero] at k2
    exact (Option.some.inj k2).symm
  subst hp
  rw [e1]
  dsimp only
  obtain ⟨l1, l2, l3⟩ := k1.addNext hi
  obtain ⟨n1, n2, n3⟩ := l1.addNext ho
  dsimp only at l1 l2 l3 n1 n2 n3
  generalize c.table.addNext a.inp = r at *
  obtain ⟨st1, i⟩ := r
  dsimp only at *
  generalize st1.addNext a.out = r at *
  obtain ⟨st2, o⟩ := r
  dsimp only at *
  obtain ⟨m2, ss2, q, e2⟩ : ∃ m ss k, Conv.stateId m1 ss1 a.target = (m, ss, k) := ⟨_, _, _, rfl⟩
  obtain ⟨r1, r2, r3⟩ := n1.stateId a.target e2
  rw [e2]
  dsimp only at *
  obtain ⟨q0, t1, t2⟩ := r1.first
  dsimp only at t1 t2
  refine ⟨by rw [List.length_modify]; exact r1.map, r1.table, r1.eps, ⟨{ q0 with arcs := q0.arcs ++ [⟨i, o, a.weight, q⟩] }, ?_, ?_⟩, ?_, ?_, r1.outside⟩
  · simp [t1]
  · exact List.rel_append t2 (.cons ⟨r2, n3 _ l2, n2, rfl⟩ .nil)
  · intro k x hk hx
    refine r1.rest k x hk ?_
    simpa [Ne.symm hk] using hx
  · intro s k x hs hx
    rw [List.getElem?_modify] at hx
    by_cases hk : 0 = k
    · subst hk
      rw [t1] at hx
      simp at hx
      subst hx
      exact r1.finals s 0 q0 hs t1
    · refine r1.finals s k x hs ?_
      simpa [hk] using hx

theorem logArcs_inv {c : LogState} {A : List Arc} {F : Nat → Option Int} (h : LogInv c A F) (states : List (List Arc))
    (hs : ∀ l ∈ states, ∀ a ∈ l, a.inp ≠ [] ∧ a.out ≠ []) : LogInv (logArcs c states) (A ++ states.flatten) F := by
  have inner : ∀ (l : List Arc) (c : LogState) (A : List Arc), LogInv c A F → (∀ a ∈ l, a.inp ≠ [] ∧ a.out ≠ []) →
      LogInv (l.foldl (logArc 0) c) (A ++ l) F := by
    intro l
    induction l with
    | nil => intro c A h _; simpa using h
    | cons a l ih =>
      intro c A h hl
      obtain ⟨h1, h2⟩ := hl a (by simp)
      have := ih _ _ (logArc_inv h h1 h2) fun b hb => hl b (by simp [hb])
      simpa using this
  unfold logArcs
  induction states generalizing c A with
  | nil => simpa using h
  | cons l states ih =>
    have := ih (inner l c A h (hs l (by simp))) fun l' hl' => hs l' (by simp [hl'])
    simpa using this

theorem logFinals_inv {c : LogState} {A : List Arc} {F : Nat → Option Int} (h : LogInv c A F) (l : List (Nat × Int)) (hl : (l.map (·.1)).Nodup) :
    LogInv (logFinals c l) A fun s => (mapGet l s).or (F s) := by
  unfold logFinals
  induction l generalizing c F with
  | nil => simpa [mapGet] using h
  | cons e l ih =>
    obtain ⟨s, w⟩ := e
    rw [List.map_cons, List.nodup_cons] at hl
    rw [List.foldl_cons]
    have hstep : LogInv (let (m, ss, p) := Conv.stateId c.map c.states s
        ⟨m, ss.modify p fun x => { x with final := some w }, c.table⟩) A fun u => if u = s then some w else F u := by
      obtain ⟨m, ss, p, e1⟩ : ∃ m ss k, Conv.stateId c.map c.states s = (m, ss, k) := ⟨_, _, _, rfl⟩
      obtain ⟨k1, k2, _⟩ := h.stateId s e1
      rw [e1]
      dsimp only at *
      obtain ⟨q0, t1, t2⟩ := k1.first
      dsimp only at t1 t2
      refine ⟨by rw [List.length_modify]; exact k1.map, k1.table, k1.eps, ?_, ?_, ?_, ?_⟩
      · by_cases hp : p = 0
        · exact ⟨{ q0 with final := some w }, by simp [hp, t1], t2⟩
        · exact ⟨q0, by simp [hp, t1], t2⟩
      · intro k x hk hx
        rw [List.getElem?_modify] at hx
        obtain ⟨y, hy, rfl⟩ := Option.map_eq_some_iff.mp hx
        have := k1.rest k y hk hy
        split
        · exact this
        · exact this
      · intro u k x hu hx
        rw [List.getElem?_modify] at hx
        dsimp only at hx hu
        obtain ⟨y, hy, rfl⟩ := Option.map_eq_some_iff.mp hx
        by_cases hus : u = s
        · subst hus
          rw [k2] at hu
          cases hu
          rw [if_pos rfl, if_pos rfl]
        · rw [if_neg hus, if_neg]
          · exact k1.finals u k y hu hy
          · rintro rfl
            exact hus (k1.map.inj u s _ hu k2)
      · intro u hu
        dsimp only at hu ⊢
        rw [if_neg]
        · exact k1.outside u hu
        · rintro rfl
          rw [k2] at hu
          cases hu
    have hfin := ih hstep hl.2
    have : (fun u => (mapGet ((s, w) :: l) u).or (F u)) = fun u => (mapGet l u).or (if u = s then some w else F u) := by
      funext u
      by_cases hus : u = s
      · subst hus
        have hnone : mapGet l u = none := by
          cases hm : mapGet l u with
          | none => rfl
          | some v => exact absurd (List.mem_map_of_mem (f := (·.1)) (mapGet_mem hm)) hl.1
        rw [hnone]
        simp [mapGet]
      · simp [mapGet, hus, Ne.symm hus]
    rw [this]
    exact hfin

theorem alphabet_inv (xs : List Sym) (hxs : [] ∉ xs) (st : SymTable) (h : TableOk st) :
    TableOk (xs.foldl (fun st x => (st.addNext x).1) st) ∧ (∀ e ∈ st, e ∈ xs.foldl (fun st x => (st.addNext x).1) st) ∧
      ∀ x ∈ xs, x ∈ (xs.foldl (fun st x => (st.addNext x).1) st).map (·.2) := by
  induction xs generalizing st with
  | nil => exact ⟨h, fun _ h => h, by simp⟩
  | cons x xs ih =>
    rw [List.mem_cons, not_or] at hxs
    obtain ⟨k1, k2, k3, _⟩ := addNext_spec h (Ne.symm hxs.1)
    obtain ⟨h1, h2, h3⟩ := ih hxs.2 _ k1
    rw [List.foldl_cons]
    refine ⟨h1, fun e he => h2 e (k3 e he), fun y hy => ?_⟩
    rcases List.mem_cons.mp hy with rfl | hy
    · exact List.mem_map_of_mem (f := (·.2)) (h2 _ k2)
    · exact h3 y hy

theorem flat_arcs (g : Graph) (s : Nat) : (flat g).arcs s = if s = 0 then g.states.flatten else [] := by
  unfold flat Graph.arcs
  cases s with
  | zero => rfl
  | succ n =>
    dsimp only
    rw [List.getElem?_cons_succ, if_neg (by omega), List.getElem?_replicate]
    split <;> rfl

theorem forall₂_right {α β : Type} {R : α → β → Prop} {A : List α} {B : List β} (h : List.Forall₂ R A B) {b : β} (hb : b ∈ B) : ∃ a ∈ A, R a b := by
  induction h with
  | nil => cases hb
  | cons h _ ih =>
    rcases List.mem_cons.mp hb with rfl | hb
    · exact ⟨_, by simp, h⟩
    · obtain ⟨a, ha, h⟩ := ih hb
      exact ⟨a, by simp [ha], h⟩

theorem forall₂_map {α β : Type} {R : α → β → Prop} {φ : β → α} (hφ : ∀ a b, R a b → φ b = a) {A : List α} {B : List β} (h : List.Forall₂ R A B) :
    A = B.map φ := by
  induction h with
  | nil => rfl
  | cons h _ ih => rw [List.map_cons, hφ _ _ h, ← ih]

/-- What the export gives: every transition leaves the first state. -/
theorem toLog_accepts (g : Graph) (hal : AlphaOK g) (hne : [] ∉ g.alphabet) (hfin : (g.finals.map (·.1)).Nodup) :
    ∃ st, (toLog g).input = some st ∧ TableOk st ∧ OWF (toLog g) ∧ (∀ x ∈ g.alphabet, x ∈ st.map (·.2)) ∧
      ∀ l w, OAccepts (toLog g) st st l w ↔ Accepts (flat g) l w := by
  have harcs : ∀ l ∈ g.states, ∀ a ∈ l, a.inp ≠ [] ∧ a.out ≠ [] := by
    intro l hl a ha
    obtain ⟨s, hs⟩ := (mem_flatten_states g a).mp (List.mem_flatten.mpr ⟨l, hl, ha⟩)
    obtain ⟨h1, h2⟩ := hal.arcs s a hs
    exact ⟨fun h => hne (h ▸ h1), fun h => hne (h ▸ h2)⟩
  have h0 : LogInv ⟨mapPut [] 0 0, [⟨[], none⟩], specials⟩ [] fun _ => none := by
    have hget : ∀ s k, mapGet (mapPut [] 0 0) s = some k ↔ s = (0 : Nat) ∧ k = (0 : Nat) := by
      intro s k
      rw [mapGet_put]
      split
      · rename_i h; subst h; simp [eq_comm]
      · rename_i h; simp [mapGet, h]
    refine ⟨⟨by rw [hget]; simp, ?_, ?_, ?_⟩, specials_ok, by rw [specials_eq]; simp, ⟨⟨[], none⟩, rfl, .nil⟩, ?_, ?_, fun _ _ => rfl⟩
    · intro s k h; rw [hget] at h; simp [h.2]
    · intro s s' k h h'; rw [hget] at h h'; rw [h.1, h'.1]
    · intro k hk; exact ⟨0, by rw [hget]; simp at hk; simp [hk]⟩
    · intro k q hk hq
      rcases k with _ | k
      · exact absurd rfl hk
      · simp at hq
    · intro s k q _ hq
      rcases k with _ | k
      · simp at hq; rw [← hq]
      · simp at hq
  have h1 := logFinals_inv (logArcs_inv h0 g.states harcs) g.finals hfin
  have hF : (fun s => (mapGet g.finals s).or none) = g.final := by
    funext s
    simp [Graph.final]
  rw [List.nil_append, hF] at h1
  have hto : toLog g = (⟨some 0, (logFinals (logArcs ⟨mapPut [] 0 0, [⟨[], none⟩], specials⟩ g.states) g.finals).states,
      some (g.alphabet.foldl (fun st x => (st.addNext x).1)
        (logFinals (logArcs ⟨mapPut [] 0 0, [⟨[], none⟩], specials⟩ g.states) g.finals).table), none⟩ : Ofst) := rfl
  rw [hto]
  generalize logFinals (logArcs ⟨mapPut [] 0 0, [⟨[], none⟩], specials⟩ g.states) g.finals = c at *
  obtain ⟨a1, a2, a3⟩ := alphabet_inv g.alphabet hne c.table h1.table
  have hwf : OWF (⟨some 0, c.states, some (g.alphabet.foldl (fun st x => (st.addNext x).1) c.table), none⟩ : Ofst) := by
    obtain ⟨q0, t1, t2⟩ := h1.first
    constructor
    · intro s hs
      cases hs
      exact (List.getElem?_eq_some_iff.mp t1).1
    · intro q hq a ha
      obtain ⟨k, hk⟩ := List.mem_iff_getElem?.mp hq
      by_cases hk0 : k = 0
      · subst hk0
        rw [t1] at hk
        cases hk
        obtain ⟨b, _, hb⟩ := forall₂_right t2 ha
        exact h1.map.bound _ _ hb.1
      · rw [h1.rest k q hk0 hk] at ha
        cases ha
  refine ⟨_, rfl, a1, hwf, a3, ?_⟩
  · intro l w
    generalize hst : g.alphabet.foldl (fun st x => (st.addNext x).1) c.table = st at *
    have e0 : (0, epsilon) ∈ st := a2 _ h1.eps
    have hsym : ∀ n x, (n, x) ∈ c.table → labelSymbol st n = x := by
      intro n x hx
      have hx := a2 _ hx
      have hx' : x ≠ [] := fun h => a1.nonempty (by rw [← h]; exact List.mem_map_of_mem (f := (·.2)) hx)
      unfold labelSymbol
      split
      · rename_i h
        rw [h] at hx
        exact congrArg Prod.snd (List.inj_on_of_nodup_map a1.labels e0 hx rfl)
      · exact (symbol_iff a1 hx').mpr hx
    -- the state of HFST for a state of OpenFst
    classical
    let σ : Nat → Nat := fun k => if h : ∃ s, mapGet c.map s = some k then h.choose else 0
    have hσ : ∀ s k, mapGet c.map s = some k → σ k = s := by
      intro s k hs
      have h : ∃ s, mapGet c.map s = some k := ⟨s, hs⟩
      show (if h : ∃ s, mapGet c.map s = some k then h.choose else 0) = s
      rw [dif_pos h]
      exact h1.map.inj _ _ _ h.choose_spec hs
    obtain ⟨q0, t1, t2⟩ := h1.first
    have cp : Copied (⟨some 0, c.states, some st, none⟩ : Ofst) σ (labelSymbol st) (labelSymbol st) (flat g) := by
      constructor
      · intro k q hq
        rw [flat_arcs]
        by_cases hk : k = 0
        · subst hk
          rw [hσ 0 0 h1.map.zero, if_pos rfl]
          change c.states[0]? = some q at hq
          rw [t1] at hq
          cases hq
          refine forall₂_map (fun a b hab => ?_) t2
          unfold image
          rw [hσ _ _ hab.1, hsym _ _ hab.2.1, hsym _ _ hab.2.2.1, hab.2.2.2]
        · obtain ⟨s, hs⟩ := h1.map.onto k (List.getElem?_eq_some_iff.mp hq).1
          rw [h1.rest k q hk hq, hσ s k hs, if_neg]
          · rfl
          · rintro rfl
            rw [h1.map.zero] at hs
            exact hk (Option.some.inj hs).symm
      · intro k q hq
        obtain ⟨s, hs⟩ := h1.map.onto k (List.getElem?_eq_some_iff.mp hq).1
        rw [hσ s k hs]
        exact (h1.finals s k q hs hq).symm
    exact (cp.accepts hwf rfl (hσ 0 0 h1.map.zero) (fun _ _ _ _ => ⟨rfl, rfl⟩) l w).symm

/-- Converting an HFST transducer to an OpenFst transducer with log weights keeps what it accepts with which weights, if only the first
state has transitions.  What is missing: other transducers, see the next theorem. -/
theorem C82_export_partial (g : Graph) (hal : AlphaOK g) (hne : [] ∉ g.alphabet) (hfin : (g.finals.map (·.1)).Nodup)
    (honly : ∀ s, s ≠ 0 → g.arcs s = []) :
    ∃ st, (toLog g).input = some st ∧ TableOk st ∧ OWF (toLog g) ∧ (∀ x ∈ g.alphabet, x ∈ st.map (·.2)) ∧
      ∀ l w, OAccepts (toLog g) st st l w ↔ Accepts g l w := by
  obtain ⟨st, h1, h2, h3, h4, h5⟩ := toLog_accepts g hal hne hfin
  refine ⟨st, h1, h2, h3, h4, fun l w => (h5 l w).trans ?_⟩
  have hmem : ∀ s a, a ∈ (flat g).arcs s ↔ a ∈ g.arcs s := by
    intro s a
    rw [flat_arcs]
    by_cases hs : s = 0
    · subst hs
      rw [if_pos rfl, mem_flatten_states]
      constructor
      · rintro ⟨s, h⟩
        by_cases hs : s = 0
        · rw [hs] at h; exact h
        · rw [honly s hs] at h; cases h
      · exact fun h => ⟨0, h⟩
    · rw [if_neg hs, honly s hs]
  have hpath : ∀ {g g' : Graph}, (∀ s a, a ∈ g.arcs s → a ∈ g'.arcs s) → ∀ {s l w q}, Path g s l w q → Path g' s l w q := by
    intro g g' h s l w q hp
    induction hp with
    | nil => exact .nil _
    | cons ha _ ih => exact .cons (h _ _ ha) ih
  constructor
  · rintro ⟨q, v, f, hp, hq, e⟩
    exact ⟨q, v, f, hpath (fun s a => (hmem s a).mp) hp, hq, e⟩
  · rintro ⟨q, v, f, hp, hq, e⟩
    exact ⟨q, v, f, hpath (fun s a => (hmem s a).mpr) hp, hq, e⟩

/-- In the result every transition leaves the first state, whichever state it left before: the transducer accepts what the one with all
transitions at the first state accepts. -/
theorem C82_export_flat (g : Graph) (hal : AlphaOK g) (hne : [] ∉ g.alphabet) (hfin : (g.finals.map (·.1)).Nodup) :
    ∃ st, (toLog g).input = some st ∧ TableOk st ∧ OWF (toLog g) ∧ ∀ l w, OAccepts (toLog g) st st l w ↔ Accepts (flat g) l w := by
  obtain ⟨st, h1, h2, h3, _, h5⟩ := toLog_accepts g hal hne hfin
  exact ⟨st, h1, h2, h3, h5⟩

/-- Accepts `a b` with weight 8. -/
def chain : Graph := ((Graph.init.addTransition 0 ⟨1, ['a'], ['a'], 3⟩).addTransition 1 ⟨2, ['b'], ['b'], 4⟩).setFinal 2 1

theorem chain_arcs (u : Nat) : chain.arcs u = if u = 0 then [⟨1, ['a'], ['a'], 3⟩] else if u = 1 then [⟨2, ['b'], ['b'], 4⟩] else [] := by
  unfold chain
  rw [arcs_setFinal, arcs_addTransition, arcs_addTransition, arcs_addTransition, init_arcs, init_arcs]
  by_cases h : u = 1
  · subst h; rfl
  · rw [if_neg h, if_neg h, init_arcs u]; rfl

theorem chain_facts : WF chain ∧ AlphaOK chain ∧ [] ∉ chain.alphabet ∧ (chain.finals.map (·.1)).Nodup := by
  refine ⟨((WF.init.addTransition _ _ _).addTransition _ _ _).setFinal _ _, ⟨?_, by decide, by decide, by decide⟩, by decide, by decide⟩
  intro s a h
  rw [chain_arcs] at h
  split at h
  · rw [List.mem_singleton.mp h]; decide
  · split at h
    · rw [List.mem_singleton.mp h]; decide
    · cases h

/-- Converting a transducer to log weights does not keep what it accepts: one that accepts only `a b` becomes one that accepts `b` and
not `a b`. -/
theorem C82_export_violated : ∃ g st, WF g ∧ AlphaOK g ∧ [] ∉ g.alphabet ∧ (g.finals.map (·.1)).Nodup ∧ (toLog g).input = some st ∧
    Accepts g [(['a'], ['a']), (['b'], ['b'])] 8 ∧ (¬ ∃ w, OAccepts (toLog g) st st [(['a'], ['a']), (['b'], ['b'])] w) ∧
    OAccepts (toLog g) st st [(['b'], ['b'])] 5 ∧ ¬ ∃ w, Accepts g [(['b'], ['b'])] w := by
  obtain ⟨k1, k2, k3, k4⟩ := chain_facts
  obtain ⟨st, h1, _, _, h4⟩ := C82_export_flat chain k2 k3 k4
  have hflat : ∀ u, (flat chain).arcs u = if u = 0 then [⟨1, ['a'], ['a'], 3⟩, ⟨2, ['b'], ['b'], 4⟩] else [] := by
    intro u
    rw [flat_arcs]
    rfl
  refine ⟨chain, st, k1, k2, k3, k4, h1, ?_, ?_, ?_, ?_⟩
  · have m0 : (⟨1, ['a'], ['a'], 3⟩ : Arc) ∈ chain.arcs 0 := by rw [chain_arcs]; simp
    have m1 : (⟨2, ['b'], ['b'], 4⟩ : Arc) ∈ chain.arcs 1 := by rw [chain_arcs]; simp
    exact ⟨2, 7, 1, .cons m0 (.cons m1 (.nil 2)), rfl, rfl⟩
  · rintro ⟨w, hw⟩
    obtain ⟨q, v, f, hp, _⟩ := (h4 _ _).mp hw
    generalize hl : ([(['a'], ['a']), (['b'], ['b'])] : List (Sym × Sym)) = l at hp
    cases hp with
    | nil => cases hl
    | cons ha hp =>
      rw [hflat] at ha
      simp only [if_true, List.mem_cons, List.not_mem_nil, or_false] at ha
      rcases ha with rfl | rfl
      · injection hl with _ hl
        subst hl
        dsimp only at hp
        generalize hl : ([(['b'], ['b'])] : List (Sym × Sym)) = l at hp
        generalize hu : (1 : Nat) = u at hp
        cases hp with
        | nil => cases hl
        | cons ha _ => rw [hflat, if_neg (by omega)] at ha; cases ha
      · injection hl with h _
        exact absurd h (by decide)
  · refine (h4 _ _).mpr ⟨2, 4, 1, ?_, rfl, rfl⟩
    have m : (⟨2, ['b'], ['b'], 4⟩ : Arc) ∈ (flat chain).arcs 0 := by rw [hflat]; simp
    exact .cons m (.nil 2)
  · rintro ⟨w, q, v, f, hp, _⟩
    generalize hl : ([(['b'], ['b'])] : List (Sym × Sym)) = l at hp
    cases hp with
    | nil => cases hl
    | cons ha hp =>
      rw [chain_arcs] at ha
      simp only [if_true, List.mem_singleton] at ha
      subst ha
      injection hl with h _
      exact absurd h (by decide)

/-! ### Cases -/

example : AlphaOK abGraph ∧ [] ∉ abGraph.alphabet ∧ (abGraph.finals.map (·.1)).Nodup ∧ ∀ s, s ≠ 0 → abGraph.arcs s = [] := by
  have ha : ∀ u, abGraph.arcs u = if u = 0 then [⟨1, ['a'], ['b'], 3⟩] else [] := by
    intro u
    unfold abGraph
    rw [arcs_setFinal, arcs_addTransition, init_arcs, init_arcs]
    rfl
  refine ⟨⟨?_, by decide, by decide, by decide⟩, by decide, by decide, fun s hs => by rw [ha, if_neg hs]⟩
  intro s a h
  rw [ha] at h
  split at h
  · rw [List.mem_singleton.mp h]; decide
  · cases h

/-- A transducer with other names for the labels of the output, in which label 0 has an ordinary name. -/
example : OWF (oneArc 1 2 [(0, ['<', 'e', 'p', 's', '>']), (1, ['a'])] (some [(2, ['b'])])) ∧
    (∀ st ∈ (oneArc 1 2 [(0, ['<', 'e', 'p', 's', '>']), (1, ['a'])] (some [(2, ['b'])])).states, ∀ a ∈ st.arcs,
      labelSymbol [(0, ['<', 'e', 'p', 's', '>']), (1, ['a'])] a.ilabel ≠ [] ∧ labelSymbol [(2, ['b'])] a.olabel ≠ []) ∧
    OAccepts (oneArc 1 2 [(0, ['<', 'e', 'p', 's', '>']), (1, ['a'])] (some [(2, ['b'])])) [(0, ['<', 'e', 'p', 's', '>']), (1, ['a'])] [(2, ['b'])]
      [(['a'], ['b'])] 8 :=
  ⟨⟨fun s hs => by cases hs; decide, by decide⟩, by decide, oneArc_accepts 1 2 _ _ _ _⟩

example : labelSymbol [(2, ['b'])] 1 = [] ∧ fromLog (oneArc 1 1 [(1, ['a'])] (some [(2, ['b'])])) true = .throws := ⟨rfl, rfl⟩

end Hfst.Conv
