import Verif.Spec.Lexc
import Verif.Props.GraphTrie
import Verif.Props.Harmonize

/-!
# C71: languages of the graphs that occur in the compilation
-/
namespace Hfst.Lexc
open Hfst.Basic
open Hfst.Basic.Graph (init)

theorem strip_append (a b : List (Sym × Sym)) : strip (a ++ b) = strip a ++ strip b := List.filter_append ..

theorem strip_cons_eps (l : List (Sym × Sym)) : strip ((epsilon, epsilon) :: l) = strip l := by simp [strip]

theorem strip_cons {p : Sym × Sym} (h : p ≠ (epsilon, epsilon)) (l : List (Sym × Sym)) : strip (p :: l) = p :: strip l := by
  simp [strip, h]

theorem strip_strip (l : List (Sym × Sym)) : strip (strip l) = strip l := by simp [strip]

theorem mem_strip {l : List (Sym × Sym)} {p : Sym × Sym} : p ∈ strip l ↔ p ∈ l ∧ p ≠ (epsilon, epsilon) := by simp [strip]

theorem strip_id {l : List (Sym × Sym)} (h : ∀ p ∈ l, p ≠ (epsilon, epsilon)) : strip l = l := by
  rw [strip, List.filter_eq_self]
  intro p hp
  simpa using h p hp

/-- Epsilon pairs may be left out before or after symbols are renamed. -/
theorem strip_map (f : Sym × Sym → Sym × Sym) (hf : f (epsilon, epsilon) = (epsilon, epsilon)) (l : List (Sym × Sym)) :
    strip ((strip l).map f) = strip (l.map f) := by
  induction l with
  | nil => rfl
  | cons p l ih =>
    by_cases h : p = (epsilon, epsilon)
    · subst h
      rw [strip_cons_eps, List.map_cons, hf, strip_cons_eps, ih]
    · rw [strip_cons h, List.map_cons, List.map_cons]
      by_cases h' : f p = (epsilon, epsilon)
      · rw [h', strip_cons_eps, strip_cons_eps, ih]
      · rw [strip_cons h', strip_cons h', ih]

theorem Cost.mono {g : Graph} {l : List (Sym × Sym)} {w w' : Int} (h : Cost g l w) (hw : w ≤ w') : Cost g l w' := by
  obtain ⟨l', v, h1, h2, h3⟩ := h
  exact ⟨l', v, h1, h2, by omega⟩

theorem Cost.stripped {g : Graph} {l : List (Sym × Sym)} {w : Int} (h : Cost g l w) : strip l = l := by
  obtain ⟨l', v, _, rfl, _⟩ := h
  exact strip_strip l'

theorem path_labels {g : Graph} {s q : Nat} {l : List (Sym × Sym)} {w : Int} (h : Path g s l w q) : ∀ p ∈ l, HasLabel g p := by
  induction h with
  | nil => simp
  | @cons s q a l w ha _ ih =>
    intro p hp
    rcases List.mem_cons.mp hp with rfl | hp
    · exact ⟨s, a, ha, rfl⟩
    · exact ih p hp

theorem Cost.labels {g : Graph} {l : List (Sym × Sym)} {w : Int} (h : Cost g l w) : ∀ p ∈ l, HasLabel g p := by
  obtain ⟨l', v, ⟨q, v', f, hp, _, _⟩, rfl, _⟩ := h
  intro p hp'
  exact path_labels hp p (mem_strip.mp hp').1

/-! ## Tries -/

theorem disjunct_ok (g : Graph) (spv : List (Sym × Sym)) (w : Int) (h : ∀ p ∈ spv, p.1 ≠ [] ∧ p.2 ≠ []) :
    ∃ g', g.disjunct spv w = .ok g' := by
  unfold Graph.disjunct
  rw [if_neg]
  · dsimp only
    split
    · split <;> exact ⟨_, rfl⟩
    · exact ⟨_, rfl⟩
  · simp only [List.any_eq_true, not_exists, not_and]
    intro p hp
    have := h p hp
    simp [Graph.isValidSymbol, this.1, this.2]

theorem runDisjunct_append {g g' : Graph} {xs : List (List (Sym × Sym) × Int)} (h : runDisjunct g xs = .ok g')
    (c : List (Sym × Sym) × Int) {g'' : Graph} (h' : g'.disjunct c.1 c.2 = .ok g'') : runDisjunct g (xs ++ [c]) = .ok g'' := by
  induction xs generalizing g with
  | nil =>
    simp only [runDisjunct, Outcome.ok.injEq] at h
    subst h
    obtain ⟨l, w⟩ := c
    simp only [List.nil_append, runDisjunct]
    rw [h']
  | cons x xs ih =>
    obtain ⟨l, w⟩ := x
    simp only [runDisjunct, List.cons_append] at h ⊢
    split
    · rename_i g1 h1
      rw [h1] at h
      exact ih h
    · rename_i hn
      exfalso
      split at h
      · rename_i g1 h1; exact hn g1 h1
      · rename_i hn'; exact hn' g' h

theorem disjunctPath_labels (spv : List (Sym × Sym)) (g : Graph) (s : Nat) (t : Nat) (a : Arc)
    (h : a ∈ (g.disjunctPath spv s).1.arcs t) : a ∈ g.arcs t ∨ a.label ∈ spv := by
  induction spv generalizing g s with
  | nil => exact .inl h
  | cons p rest ih =>
    unfold Graph.disjunctPath at h
    split at h
    · rcases ih _ _ h with h | h
      · exact .inl h
      · exact .inr (by simp [h])
    · rcases ih _ _ h with h | h
      · rw [Graph.arcs_addTransition] at h
        change a ∈ (if t = s then g.addState.1.arcs s ++ _ else g.addState.1.arcs t) at h
        rw [Graph.arcs_addState, Graph.arcs_addState] at h
        split at h
        · rename_i e
          rcases List.mem_append.mp h with h | h
          · exact .inl (e ▸ h)
          · simp only [List.mem_singleton] at h
            subst h
            exact .inr (by simp [Arc.label])
        · exact .inl h
      · exact .inr (by simp [h])

theorem disjunct_good {g g' : Graph} (hg : Good g) {spv : List (Sym × Sym)} {w : Int} (h : g.disjunct spv w = .ok g') :
    Good g' ∧ ∀ t, ∀ a ∈ g'.arcs t, a ∈ g.arcs t ∨ a.label ∈ spv := by
  unfold Graph.disjunct at h
  split at h
  · cases h
  have h1 : Good (g.disjunctPath spv 0).1 :=
    ⟨(hg.wf.disjunctPath spv 0 hg.wf.nonempty).1, hg.alpha.disjunctPath spv 0, by
      unfold FinalMap; rw [finals_disjunctPath]; exact hg.finals⟩
  have h2 : Good ((g.disjunctPath spv 0).1.setFinal (g.disjunctPath spv 0).2 w) :=
    ⟨h1.wf.setFinal _ _, h1.alpha.setFinal _ _, FinalMap.put h1.finals _ _⟩
  have l1 := disjunctPath_labels spv g 0
  dsimp only at h
  split at h
  · split at h
    · cases h; exact ⟨h1, l1⟩
    · cases h
      exact ⟨h2, fun t a ha => l1 t a (by rw [Graph.arcs_setFinal] at ha; exact ha)⟩
  · cases h
    exact ⟨h2, fun t a ha => l1 t a (by rw [Graph.arcs_setFinal] at ha; exact ha)⟩

theorem init_good : Good init := ⟨WF.init, AlphaOK.init, by simp [FinalMap, init]⟩

theorem init_labels (p : Sym × Sym) : ¬ HasLabel init p := by
  rintro ⟨s, a, ha, _⟩
  have hs := Graph.lt_of_mem_arcs ha
  simp only [init, List.length_cons, List.length_nil, Nat.zero_add, Nat.lt_one_iff] at hs
  subst hs
  simp [Graph.arcs, init] at ha

theorem init_cost (l : List (Sym × Sym)) (w : Int) : ¬ Cost init l w := by
  rintro ⟨l', v, ⟨q, v', f, _, hf, _⟩, _⟩
  simp [Graph.final, init, mapGet] at hf

theorem trie_good_from {g g' : Graph} (hg : Good g) (calls : List (List (Sym × Sym) × Int)) (h : runDisjunct g calls = .ok g') :
    Good g' ∧ ∀ p, HasLabel g' p → HasLabel g p ∨ ∃ c ∈ calls, p ∈ c.1 := by
  induction calls generalizing g with
  | nil => cases h; exact ⟨hg, fun p hp => .inl hp⟩
  | cons c calls ih =>
    obtain ⟨l, w⟩ := c
    simp only [runDisjunct] at h
    split at h
    · rename_i g1 h1
      obtain ⟨h2, h3⟩ := disjunct_good hg h1
      obtain ⟨h4, h5⟩ := ih h2 h
      refine ⟨h4, ?_⟩
      intro p hp
      rcases h5 p hp with ⟨s, a, ha, rfl⟩ | ⟨c, hc, hp⟩
      · rcases h3 s a ha with h | h
        · exact .inl ⟨s, a, h, rfl⟩
        · exact .inr ⟨(l, w), by simp, h⟩
      · exact .inr ⟨c, by simp [hc], hp⟩
    · rename_i hn; exact absurd h (hn g')

theorem trie_good {g : Graph} {calls : List (List (Sym × Sym) × Int)} (h : runDisjunct init calls = .ok g) :
    Good g ∧ ∀ p, HasLabel g p → ∃ c ∈ calls, p ∈ c.1 := by
  obtain ⟨h1, h2⟩ := trie_good_from init_good calls h
  exact ⟨h1, fun p hp => (h2 p hp).resolve_left (init_labels p)⟩

theorem trie_cost {g : Graph} {calls : List (List (Sym × Sym) × Int)} (h : runDisjunct init calls = .ok g)
    (l : List (Sym × Sym)) (w : Int) : Cost g l w ↔ ∃ c ∈ calls, strip c.1 = l ∧ c.2 ≤ w := by
  constructor
  · rintro ⟨l', v, ha, rfl, hv⟩
    exact ⟨(l', v), ((C20_history calls g h l' v).mp ha).1, rfl, hv⟩
  · rintro ⟨⟨l', v⟩, hc, rfl, hv⟩
    obtain ⟨u, hu, hmin⟩ := exists_smallest l' calls ⟨v, hc⟩
    have := hmin v hc
    exact ⟨l', u, (C20_history calls g h l' u).mpr ⟨hu, hmin⟩, rfl, by dsimp only at hv; omega⟩

/-! ## Renaming of symbols -/

/-- A table of symbols as a function on pairs. -/
def ren (m : List (Sym × Sym)) (p : Sym × Sym) : Sym × Sym := ((m.lookup p.1).getD p.1, (m.lookup p.2).getD p.2)

theorem substituteMap_spec {g : Graph} (hg : Good g) (m : List (Sym × Sym)) (hv : ∀ e ∈ m, e.1 ≠ [] ∧ e.2 ≠ [])
    (he : m.lookup epsilon = none) :
    ∃ g', g.substituteMap m = .ok g' ∧ Good g' ∧ (∀ p, HasLabel g' p → ∃ p', HasLabel g p' ∧ p = ren m p') ∧
      ∀ l w, Cost g' l w ↔ ∃ l', Cost g l' w ∧ l = strip (l'.map (ren m)) := by
  have hfe : ren m (epsilon, epsilon) = (epsilon, epsilon) := by simp [ren, he]
  obtain ⟨g', h⟩ : ∃ g', g.substituteMap m = .ok g' := by
    unfold Graph.substituteMap
    rw [if_neg]
    · exact ⟨_, rfl⟩
    · simp only [List.any_eq_true, not_exists, not_and]
      intro e hm
      simp [Graph.isValidSymbol, hv e hm]
  refine ⟨g', h, ?_, ?_, ?_⟩
  · unfold Graph.substituteMap at h
    split at h
    · cases h
    cases h
    refine ⟨?_, ?_, hg.finals⟩
    · exact hg.wf.mapStates _ _ (by
        intro l a ha
        obtain ⟨b, hb, rfl⟩ := List.mem_map.mp ha
        exact ⟨b, hb, rfl⟩)
    · have hal : ∀ x ∈ g.alphabet, x ∈ ((g.states.flatMap fun l => l.flatMap (Graph.substMapAdded m)).foldl setInsert g.alphabet) := by
        intro x hx; rw [mem_foldl_setInsert]; exact .inr hx
      refine ⟨?_, hal _ hg.alpha.eps, hal _ hg.alpha.unk, hal _ hg.alpha.idn⟩
      intro s a ha
      rw [Graph.arcs_map g _ (by simp)] at ha
      obtain ⟨b, hb, rfl⟩ := List.mem_map.mp ha
      have hlen := Graph.lt_of_mem_arcs hb
      have hmem : ∀ x, x ∈ Graph.substMapAdded m b → x ∈ (g.states.flatMap fun l => l.flatMap (Graph.substMapAdded m)) := by
        intro x hx
        refine List.mem_flatMap.mpr ⟨g.states[s], List.getElem_mem hlen, List.mem_flatMap.mpr ⟨b, ?_, hx⟩⟩
        simpa [Graph.arcs, List.getElem?_eq_getElem hlen] using hb
      constructor
      · simp only [Graph.substArcMap]
        rw [mem_foldl_setInsert]
        cases hx : mapGet m b.inp with
        | none => exact .inr (hg.alpha.arcs s b hb).1
        | some y => exact .inl (hmem _ (by simp [Graph.substMapAdded, hx]))
      · simp only [Graph.substArcMap]
        rw [mem_foldl_setInsert]
        cases hx : mapGet m b.out with
        | none => exact .inr (hg.alpha.arcs s b hb).2
        | some y => exact .inl (hmem _ (by simp [Graph.substMapAdded, hx]))
  · intro p hp
    unfold Graph.substituteMap at h
    split at h
    · cases h
    cases h
    obtain ⟨s, a, ha, rfl⟩ := hp
    rw [Graph.arcs_map g _ (by simp)] at ha
    obtain ⟨b, hb, rfl⟩ := List.mem_map.mp ha
    exact ⟨b.label, ⟨s, b, hb, rfl⟩, by simp [ren, Graph.substArcMap, Arc.label, mapGet_eq_lookup]⟩
  · intro l w
    have hc := C19_substituteMap g g' m h
    constructor
    · rintro ⟨l', v, ha, rfl, hv⟩
      obtain ⟨l0, h0, rfl⟩ := (hc _ _).mp ha
      exact ⟨strip l0, ⟨l0, v, h0, rfl, hv⟩, (strip_map (ren m) hfe l0).symm⟩
    · rintro ⟨l', ⟨l0, v, h0, rfl, hv⟩, rfl⟩
      exact ⟨_, v, (hc _ _).mpr ⟨l0, h0, rfl⟩, (strip_map (ren m) hfe l0).symm, hv⟩

theorem prune_spec {g : Graph} (hg : Good g) : Good g.pruneAlphabet ∧ (∀ p, HasLabel g.pruneAlphabet p → HasLabel g p) ∧
    ∀ l w, Cost g.pruneAlphabet l w ↔ Cost g l w := by
  have hst : g.pruneAlphabet.states = g.states ∧ g.pruneAlphabet.finals = g.finals := by
    simp [Graph.pruneAlphabet]
  have harcs : ∀ s, g.pruneAlphabet.arcs s = g.arcs s := fun s => by simp [Graph.arcs, hst.1]
  have hfin : ∀ s, g.pruneAlphabet.final s = g.final s := fun s => by simp [Graph.final, hst.2]
  refine ⟨⟨?_, ?_, ?_⟩, ?_, ?_⟩
  · have := hg.wf.alpha g.pruneAlphabet.alphabet
    have e : g.pruneAlphabet = { g with alphabet := g.pruneAlphabet.alphabet } := by
      simp [Graph.pruneAlphabet]
    rw [e]; exact this
  · have hu : g.pruneAlphabet.symbolsUsed = g.symbolsUsed := by simp [Graph.symbolsUsed, hst.1]
    refine hg.alpha.shrink ?_ (fun s a ha => by rw [harcs] at ha; exact ha)
    intro x hx hu'
    rw [hu] at hu'
    simp only [Graph.pruneAlphabet, Bool.not_true, Bool.false_and, Bool.false_eq_true, if_false]
    rw [mem_foldl_setErase]
    refine ⟨hx, ?_⟩
    simp only [List.mem_filter, decide_eq_true_eq, not_and, not_not]
    intro _
    rcases hu' with (h | h | h) | h
    · simp [h]
    · simp [h]
    · simp [h]
    · simp [h]
  · unfold FinalMap; rw [hst.2]; exact hg.finals
  · rintro p ⟨s, a, ha, rfl⟩
    rw [harcs] at ha
    exact ⟨s, a, ha, rfl⟩
  · have hp : ∀ s l w q, Path g.pruneAlphabet s l w q ↔ Path g s l w q := by
      intro s l w q
      constructor
      · intro h
        induction h with
        | nil s => exact .nil s
        | cons ha _ ih => exact .cons (by rw [harcs] at ha; exact ha) ih
      · intro h
        induction h with
        | nil s => exact .nil s
        | cons ha _ ih => exact .cons (by rw [harcs]; exact ha) ih
    intro l w
    simp only [Cost, Accepts, hp, hfin]

end Hfst.Lexc
