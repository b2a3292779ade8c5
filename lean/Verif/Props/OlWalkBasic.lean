import Mathlib.Data.List.Perm.Subperm
import Verif.Props.OlWalk
import Verif.Props.OlConvert

/-!
# The conversion from optimized lookup to a basic transducer
-/
namespace Hfst.Ol
open Hfst.Basic

section
variable {M : Machine} {n : Inputs} {N : Net} {pos : Nat → Nat} {count : Nat}

/-- The tables tell whether a state is final. -/
theorem placeFinal_ok (hR : Represents M n N pos) {q : Nat} (hq : q < N.size) : placeFinal M (pos q) = .ok (N.final q) := by
  unfold placeFinal
  rcases hR.placed q hq with hI | hT
  · rw [if_pos hI.low]
    obtain ⟨e, h1, h2⟩ := hI.state
    unfold tableGet
    rw [if_pos hI.low, h1]
    dsimp only
    congr 1
    unfold MarksIndex at h2
    unfold Index.final Machine.indexWeight
    cases hf : N.final q with
    | none =>
      rw [hf] at h2
      rw [if_neg (by simpa using h2)]
    | some w =>
      rw [hf] at h2
      rw [if_pos (by simpa using ⟨h2.1, h2.2.1⟩), h2.2.2]
  · have hh := hT.high
    rw [if_neg (by omega)]
    obtain ⟨t, h1, h2⟩ := hT.state
    unfold tableGet
    rw [if_neg (by omega), h1]
    dsimp only
    congr 1
    unfold MarksTrans at h2
    unfold Trans.final Machine.transWeight
    cases hf : N.final q with
    | none =>
      rw [hf] at h2
      rw [if_neg (by simpa using h2)]
    | some w =>
      rw [hf] at h2
      rw [if_pos (by simpa using ⟨h2.1, h2.2.1, h2.2.2.1⟩), h2.2.2.2]

/-- No two states are at the same place. -/
def Apart (N : Net) (pos : Nat → Nat) : Prop := ∀ q < N.size, ∀ r < N.size, pos q = pos r → q = r

/-- The transition of the graph for a transition of the net. -/
def image (M : Machine) (pos : Nat → Nat) (m : List (Nat × Nat)) (a : NArc) : Arc :=
  ⟨(mapGet m (pos a.target)).getD 0, M.name a.input, M.name a.output, a.weight⟩

/-- What holds while the graph is made; `full q` are the transitions of state `q` that have been added. -/
structure UnfoldInv (M : Machine) (N : Net) (pos : Nat → Nat) (full : Nat → NArc → Prop) (U : Unfolding) : Prop where
  places : ∀ i k, mapGet U.map i = some k → k ≤ U.last ∧ ∃ q < N.size, i = pos q
  apart : ∀ i j k, mapGet U.map i = some k → mapGet U.map j = some k → i = j
  nodup : (U.map.map (·.1)).Nodup
  start : mapGet U.map (pos 0) = some 0
  agenda : ∀ i ∈ U.agenda, (mapGet U.map i).isSome
  final : ∀ q k, q < N.size → mapGet U.map (pos q) = some k → U.graph.final k = N.final q
  beyond : ∀ k, U.last < k → U.graph.final k = none ∧ U.graph.arcs k = []
  added : ∀ q a, full q a → a ∈ N.arcs q ∧ (mapGet U.map (pos a.target)).isSome
  arcs : ∀ q k, q < N.size → mapGet U.map (pos q) = some k → ∀ b, b ∈ U.graph.arcs k ↔ ∃ a, full q a ∧ b = image M pos U.map a
  alpha : ∀ x, x ∈ U.graph.alphabet ↔ x ∈ Graph.init.alphabet ∨ x ∈ M.alphabet.table.map asText

theorem mapGet_key {m : List (Nat × Nat)} {i : Nat} : (mapGet m i).isSome ↔ i ∈ m.map (·.1) := by
  constructor
  · intro h
    obtain ⟨v, hv⟩ := Option.isSome_iff_exists.mp h
    exact List.mem_map.mpr ⟨(i, v), mapGet_mem hv, rfl⟩
  · intro h
    obtain ⟨⟨j, v⟩, h1, rfl⟩ := List.mem_map.mp h
    exact mapGet_isSome_of_mem h1

theorem mapPut_new {m : List (Nat × Nat)} {i v : Nat} (h : mapGet m i = none) : mapPut m i v = (i, v) :: m := by
  unfold mapPut
  rw [List.filter_eq_self.mpr]
  rintro ⟨j, w⟩ hj
  apply decide_eq_true
  rintro rfl
  have := mapGet_isSome_of_mem hj
  rw [h] at this
  cases this

/-- The places that have a number are not more than the states. -/
theorem UnfoldInv.length (h : UnfoldInv M N pos full U) : U.map.length ≤ N.size := by
  have h1 : U.map.map (·.1) ⊆ (List.range N.size).map pos := by
    intro i hi
    obtain ⟨k, hk⟩ := Option.isSome_iff_exists.mp (mapGet_key.mpr hi)
    obtain ⟨_, q, hq, rfl⟩ := h.places i k hk
    exact List.mem_map.mpr ⟨q, List.mem_range.mpr hq, rfl⟩
  have h2 := (List.Nodup.subperm h.nodup h1).length_le
  rwa [List.length_map, List.length_map, List.length_range] at h2

theorem withFinal_alphabet (g : Graph) (k : Nat) (f : Option Int) : (withFinal g k f).alphabet = g.alphabet := by
  cases f <;> rfl

/-- Giving a number to a state. -/
theorem addState_inv (hR : Represents M n N pos) (hP : Apart N pos) {full : Nat → NArc → Prop} {U : Unfolding} (h : UnfoldInv M N pos full U) {q : Nat} (hq : q < N.size)
    (hnew : mapGet U.map (pos q) = none) (hfull : ∀ a, ¬ full q a) :
    ∃ V, U.addState M (pos q) (U.last + 1) = .ok V ∧ V.map = (pos q, U.last + 1) :: U.map ∧ V.agenda = U.agenda ∧
      UnfoldInv M N pos full { V with last := U.last + 1, agenda := pos q :: V.agenda } := by
  unfold Unfolding.addState
  rw [placeFinal_ok hR hq]
  refine ⟨_, rfl, mapPut_new hnew, rfl, ?_⟩
  have hget : ∀ i, mapGet (mapPut U.map (pos q) (U.last + 1)) i = if i = pos q then some (U.last + 1) else mapGet U.map i := by
    intro i
    rw [mapGet_put]
  have hfinal : ∀ k, (withFinal U.graph (U.last + 1) (N.final q)).final k = if k = U.last + 1 then N.final q else U.graph.final k := by
    intro k
    cases hf : N.final q with
    | none =>
      show U.graph.final k = _
      split
      · rename_i hk
        exact (h.beyond k (by omega)).1
      · rfl
    | some w =>
      show ((U.graph.addStateN (U.last + 1)).setFinal (U.last + 1) w).final k = _
      rw [Graph.final_setFinal, Graph.final_addStateN]
  have harcs : ∀ k, (withFinal U.graph (U.last + 1) (N.final q)).arcs k = U.graph.arcs k := by
    intro k
    cases N.final q with
    | none => rfl
    | some w => simp [withFinal]
  have himage : ∀ a, full q a ∨ (∃ r, full r a) → image M pos (mapPut U.map (pos q) (U.last + 1)) a = image M pos U.map a := by
    rintro a ha
    have : ∃ r, full r a := by
      rcases ha with ha | ha
      · exact ⟨q, ha⟩
      · exact ha
    obtain ⟨r, hr⟩ := this
    unfold image
    rw [hget, if_neg]
    intro he
    have := (h.added r a hr).2
    rw [he, hnew] at this
    cases this
  refine ⟨?_, ?_, ?_, ?_, ?_, ?_, ?_, ?_, ?_, ?_⟩
  · intro i k hi
    dsimp only at hi ⊢
    rw [hget] at hi
    split at hi
    · rename_i he
      injection hi with hi
      exact ⟨by omega, q, hq, he⟩
    · obtain ⟨h1, h2⟩ := h.places i k hi
      exact ⟨by omega, h2⟩
  · intro i j k hi hj
    dsimp only at hi hj
    rw [hget] at hi hj
    split at hi <;> split at hj
    · rename_i h1 h2
      rw [h1, h2]
    · injection hi with hi
      have := (h.places j k hj).1
      omega
    · injection hj with hj
      have := (h.places i k hi).1
      omega
    · exact h.apart i j k hi hj
  · dsimp only
    rw [mapPut_new hnew, List.map_cons, List.nodup_cons]
    refine ⟨fun hm => ?_, h.nodup⟩
    rw [← mapGet_key, hnew] at hm
    cases hm
  · dsimp only
    rw [hget]
    split
    · rename_i he
      have := h.start
      rw [he, hnew] at this
      cases this
    · exact h.start
  · intro i hi
    dsimp only at hi ⊢
    rw [hget]
    split
    · rfl
    · rename_i hne
      rcases List.mem_cons.mp hi with hi | hi
      · exact absurd hi hne
      · exact h.agenda i hi
  · intro r k hr hk
    dsimp only at hk ⊢
    rw [hget] at hk
    rw [hfinal]
    split at hk
    · rename_i he
      injection hk with hk
      rw [if_pos hk.symm, hP r hr q hq he]
    · have := (h.places _ _ hk).1
      rw [if_neg (by omega)]
      exact h.final r k hr hk
  · intro k hk
    dsimp only at hk ⊢
    rw [hfinal, harcs, if_neg (by omega)]
    exact h.beyond k (by omega)
  · intro r a ha
    dsimp only
    obtain ⟨h1, h2⟩ := h.added r a ha
    refine ⟨h1, ?_⟩
    rw [hget]
    split
    · rfl
    · exact h2
  · intro r k hr hk b
    dsimp only at hk ⊢
    rw [hget] at hk
    rw [harcs]
    split at hk
    · rename_i he
      injection hk with hk
      rw [(h.beyond k (by omega)).2, hP r hr q hq he]
      refine ⟨(fun hb => by cases hb), fun ⟨a, ha, _⟩ => absurd ha (hfull a)⟩
    · rw [h.arcs r k hr hk b]
      constructor
      · rintro ⟨a, ha, rfl⟩
        exact ⟨a, ha, (himage a (.inr ⟨r, ha⟩)).symm⟩
      · rintro ⟨a, ha, rfl⟩
        exact ⟨a, ha, himage a (.inr ⟨r, ha⟩)⟩
  · intro x
    show x ∈ (withFinal U.graph (U.last + 1) (N.final q)).alphabet ↔ _
    rw [withFinal_alphabet]
    exact h.alpha x

theorem name_get {x : Nat} (hx : x < M.alphabet.table.length) : ∃ s, M.alphabet.table[x]? = some s ∧ asText s = M.name x := by
  refine ⟨_, List.getElem?_eq_getElem hx, ?_⟩
  unfold Machine.name
  rw [List.getElem?_eq_getElem hx]
  rfl

/-- Adding a transition. -/
theorem addArc_inv (hP : Apart N pos) {full : Nat → NArc → Prop} {U : Unfolding} (h : UnfoldInv M N pos full U) {q k : Nat} (hq : q < N.size)
    (hk : mapGet U.map (pos q) = some k) {a : NArc} (ha : a ∈ N.arcs q) (ht : (mapGet U.map (pos a.target)).isSome)
    (hn : a.input < M.alphabet.table.length ∧ a.output < M.alphabet.table.length) :
    UnfoldInv M N pos (fun r b => full r b ∨ (r = q ∧ b = a)) { U with graph := U.graph.addTransition k (image M pos U.map a) } := by
  refine ⟨h.places, h.apart, h.nodup, h.start, h.agenda, ?_, ?_, ?_, ?_, ?_⟩
  · intro r j hr hj
    dsimp only at hj ⊢
    rw [Graph.final_addTransition]
    exact h.final r j hr hj
  · intro j hj
    dsimp only at hj ⊢
    rw [Graph.final_addTransition, Graph.arcs_addTransition, if_neg]
    · exact h.beyond j hj
    · have := (h.places _ _ hk).1
      omega
  · rintro r b (hb | ⟨rfl, rfl⟩)
    · exact h.added r b hb
    · exact ⟨ha, ht⟩
  · intro r j hr hj b
    dsimp only at hj ⊢
    rw [Graph.arcs_addTransition]
    by_cases hjk : j = k
    · have hrq : r = q := hP r hr q hq (h.apart _ _ k (hjk ▸ hj) hk)
      rw [if_pos hjk, List.mem_append, List.mem_singleton, h.arcs r k hr (hjk ▸ hj) b]
      constructor
      · rintro (⟨c, hc, rfl⟩ | rfl)
        · exact ⟨c, .inl hc, rfl⟩
        · exact ⟨a, .inr ⟨hrq, rfl⟩, rfl⟩
      · rintro ⟨c, hc | ⟨_, rfl⟩, rfl⟩
        · exact .inl ⟨c, hc, rfl⟩
        · exact .inr rfl
    · rw [if_neg hjk, h.arcs r j hr hj b]
      constructor
      · rintro ⟨c, hc, rfl⟩
        exact ⟨c, .inl hc, rfl⟩
      · rintro ⟨c, hc | ⟨rfl, rfl⟩, rfl⟩
        · exact ⟨c, hc, rfl⟩
        · rw [hk] at hj
          injection hj with hj
          exact absurd hj.symm hjk
  · intro x
    dsimp only
    rw [Graph.mem_alphabet_addTransition]
    have hx : ∀ {k : Nat}, k < M.alphabet.table.length → M.name k ∈ M.alphabet.table.map asText := by
      intro k hk
      obtain ⟨s, h1, h2⟩ := name_get hk
      exact List.mem_map.mpr ⟨s, List.mem_of_getElem? h1, h2⟩
    constructor
    · rintro (h1 | ⟨_, rfl | rfl⟩)
      · exact (h.alpha x).mp h1
      · exact .inr (hx hn.1)
      · exact .inr (hx hn.2)
    · intro h1
      exact .inl ((h.alpha x).mpr h1)

/-- The agenda and the states without a number. -/
def Unfolding.todo (N : Net) (U : Unfolding) : Nat := U.agenda.length + (N.size - U.map.length)

/-- Which states have all their transitions: those that are not on the agenda; the state `q` has only those with the property `p`. -/
structure Half (M : Machine) (N : Net) (pos : Nat → Nat) (q : Nat) (p : NArc → Prop) (U : Unfolding) : Prop where
  notOn : pos q ∉ U.agenda
  nodup : U.agenda.Nodup
  inv : UnfoldInv M N pos (fun r a => (r = q ∧ p a) ∨ (r ≠ q ∧ r < N.size ∧ (mapGet U.map (pos r)).isSome ∧ pos r ∉ U.agenda ∧ a ∈ N.arcs r)) U

theorem UnfoldInv.congr {full full' : Nat → NArc → Prop} {U : Unfolding} (h : UnfoldInv M N pos full U) (he : ∀ r a, full r a ↔ full' r a) : UnfoldInv M N pos full' U := by
  have : full = full' := by
    funext r a
    exact propext (he r a)
  exact this ▸ h

theorem step_ok (hR : Represents M n N pos) (hS : SymbolsOK M.kinds n N) (hP : Apart N pos) {q k : Nat} (hq : q < N.size) {p : NArc → Prop} {U : Unfolding} (h : Half M N pos q p U)
    (hk : mapGet U.map (pos q) = some k) {i : Nat} {a : NArc} (ha : a ∈ N.arcs q) (hi : At M pos i a) :
    ∃ V, U.step M k i = .ok V ∧ Half M N pos q (fun b => p b ∨ b = a) V ∧ mapGet V.map (pos q) = some k ∧ V.todo N = U.todo N := by
  obtain ⟨t, ht1, ht2, ht3⟩ := hi
  have hget : tableGet M.transitions i = some t := by
    unfold tableGet
    rw [if_neg (by omega)]
    exact ht2
  have htar := hR.closed q hq a ha
  obtain ⟨x, hx1, hx2⟩ := name_get (hS.known q hq a ha).1
  obtain ⟨y, hy1, hy2⟩ := name_get (hS.known q hq a ha).2
  unfold Unfolding.step
  rw [hget]
  dsimp only
  rw [ht3.2.2.1, ht3.1, ht3.2.1, hx1, hy1]
  have himg : ∀ m : List (Nat × Nat), (⟨(mapGet m (pos a.target)).getD 0, asText x, asText y, M.transWeight t⟩ : Arc) = image M pos m a := by
    intro m
    unfold image Machine.transWeight
    rw [hx2, hy2, ht3.2.2.2]
  by_cases hs : (mapGet U.map (pos a.target)).isSome = true
  · rw [if_pos hs]
    refine ⟨_, rfl, ⟨h.notOn, h.nodup, ?_⟩, hk, rfl⟩
    rw [himg]
    refine (addArc_inv hP h.inv hq hk ha hs (hS.known q hq a ha)).congr fun r b => ?_
    constructor
    · rintro ((⟨h1, h2⟩ | h1) | ⟨h1, h2⟩)
      · exact .inl ⟨h1, .inl h2⟩
      · exact .inr h1
      · exact .inl ⟨h1, .inr h2⟩
    · rintro (⟨h1, h2 | h2⟩ | h1)
      · exact .inl (.inl ⟨h1, h2⟩)
      · exact .inr ⟨h1, h2⟩
      · exact .inl (.inr h1)
  · rw [if_neg hs]
    have hnew : mapGet U.map (pos a.target) = none := by
      cases hc : mapGet U.map (pos a.target) with
      | none => rfl
      | some v => rw [hc] at hs; exact absurd rfl hs
    have hne : a.target ≠ q := by
      intro he
      rw [he, hk] at hnew
      cases hnew
    obtain ⟨V, e1, e2, e3, e4⟩ := addState_inv hR hP h.inv htar hnew (by
      rintro b (⟨h1, _⟩ | ⟨_, _, h2, _⟩)
      · exact hne h1
      · rw [hnew] at h2
        cases h2)
    rw [e1]
    have hmapq : ∀ {i : Nat}, i ≠ pos a.target → mapGet V.map i = mapGet U.map i := by
      intro i hi
      have : V.map = mapPut U.map (pos a.target) (U.last + 1) := by rw [e2, mapPut_new hnew]
      rw [this, mapGet_put]
      by_cases h' : i = pos a.target
      · exact absurd h' hi
      · rw [if_neg h']
    have htmap : (mapGet V.map (pos a.target)).isSome = true := by
      rw [mapGet_key, e2]
      simp
    have hposne : pos q ≠ pos a.target := fun he => hne (hP _ htar _ hq he.symm)
    have hkV : mapGet V.map (pos q) = some k := by rw [hmapq hposne]; exact hk
    have hnotag : pos a.target ∉ U.agenda := by
      intro hm
      have := h.inv.agenda _ hm
      rw [hnew] at this
      cases this
    refine ⟨_, rfl, ⟨?_, ?_, ?_⟩, hkV, ?_⟩
    · show pos q ∉ pos a.target :: V.agenda
      rw [e3, List.mem_cons]
      rintro (h1 | h1)
      · exact hposne h1
      · exact h.notOn h1
    · show (pos a.target :: V.agenda).Nodup
      rw [e3, List.nodup_cons]
      exact ⟨hnotag, h.nodup⟩
    · rw [himg]
      refine (addArc_inv (U := { V with last := U.last + 1, agenda := pos a.target :: V.agenda }) hP e4 hq hkV ha htmap (hS.known q hq a ha)).congr fun r b => ?_
      have hiff : (r ≠ q ∧ r < N.size ∧ (mapGet U.map (pos r)).isSome = true ∧ pos r ∉ U.agenda ∧ b ∈ N.arcs r) ↔
          (r ≠ q ∧ r < N.size ∧ (mapGet V.map (pos r)).isSome = true ∧ pos r ∉ pos a.target :: V.agenda ∧ b ∈ N.arcs r) := by
        rw [e3]
        by_cases hr : pos r = pos a.target
        · rw [hr, hnew]
          simp
        · rw [hmapq hr, List.mem_cons]
          simp only [hr, false_or]
      constructor
      · rintro ((⟨h1, h2⟩ | h1) | ⟨h1, h2⟩)
        · exact .inl ⟨h1, .inl h2⟩
        · exact .inr (hiff.mp h1)
        · exact .inl ⟨h1, .inr h2⟩
      · rintro (⟨h1, h2 | h2⟩ | h1)
        · exact .inl (.inl ⟨h1, h2⟩)
        · exact .inr ⟨h1, h2⟩
        · exact .inl (.inr (hiff.mpr h1))
    · have hl := UnfoldInv.length e4
      have hl : V.map.length ≤ N.size := hl
      unfold Unfolding.todo
      show (pos a.target :: V.agenda).length + (N.size - V.map.length) = _
      rw [e3]
      rw [e2] at hl ⊢
      rw [List.length_cons] at hl ⊢
      rw [List.length_cons]
      omega

theorem steps_ok (hR : Represents M n N pos) (hS : SymbolsOK M.kinds n N) (hP : Apart N pos) {q k : Nat} (hq : q < N.size) :
    ∀ (l : List Nat) {p : NArc → Prop} {U : Unfolding}, Half M N pos q p U → mapGet U.map (pos q) = some k →
      (∀ i ∈ l, ∃ a ∈ N.arcs q, At M pos i a) →
      ∃ V p', Unfolding.steps M k l U = .ok V ∧ Half M N pos q p' V ∧ mapGet V.map (pos q) = some k ∧ V.todo N = U.todo N ∧
        (∀ b, p b → p' b) ∧ ∀ i ∈ l, ∀ a ∈ N.arcs q, At M pos i a → p' a
  | [], p, U, h, hk, _ => ⟨U, p, rfl, h, hk, rfl, (fun _ h => h), fun i hi => by cases hi⟩
  | i :: l, p, U, h, hk, hl => by
    obtain ⟨a, ha, hi⟩ := hl i (List.mem_cons_self ..)
    obtain ⟨V, e1, e2, e3, e4⟩ := step_ok hR hS hP hq h hk ha hi
    obtain ⟨W, p', f1, f2, f3, f4, f5, f6⟩ := steps_ok hR hS hP hq l e2 e3 fun j hj => hl j (List.mem_cons_of_mem _ hj)
    refine ⟨W, p', ?_, f2, f3, f4.trans e4, (fun b hb => f5 b (.inl hb)), ?_⟩
    · unfold Unfolding.steps
      rw [e1]
      exact f1
    · intro j hj b hb hjb
      rcases List.mem_cons.mp hj with rfl | hj
      · refine f5 b (.inr ?_)
        obtain ⟨t, h1, h2, h3⟩ := hi
        obtain ⟨t', g1, g2, g3⟩ := hjb
        rw [h2] at g2
        injection g2 with g2
        subst g2
        obtain ⟨h4, h5, h6, h7⟩ := h3
        obtain ⟨g4, g5, g6, g7⟩ := g3
        have := hP _ (hR.closed q hq b hb) _ (hR.closed q hq a ha) (g6.symm.trans h6)
        cases a
        cases b
        simp only at *
        simp only [NArc.mk.injEq]
        exact ⟨g4.symm.trans h4, g5.symm.trans h5, this, g7.symm.trans h7⟩
      · exact f6 j hj b hb hjb

/-- Every state that has a number and is not on the agenda has all its transitions. -/
structure Whole (M : Machine) (N : Net) (pos : Nat → Nat) (U : Unfolding) : Prop where
  nodup : U.agenda.Nodup
  inv : UnfoldInv M N pos (fun r a => r < N.size ∧ (mapGet U.map (pos r)).isSome ∧ pos r ∉ U.agenda ∧ a ∈ N.arcs r) U

theorem run_ok (hR : Represents M n N pos) (hS : SymbolsOK M.kinds n N) (hw : Walkable M n N pos count) (hP : Apart N pos) :
    ∀ (fuel : Nat) {U : Unfolding}, Whole M N pos U → U.todo N < fuel →
      ∃ V, Unfolding.run M count fuel U = .ok V ∧ Whole M N pos V ∧ V.agenda = []
  | 0, U, _, h => by omega
  | fuel + 1, U, h, hf => by
    unfold Unfolding.run
    cases hag : U.agenda with
    | nil => exact ⟨U, rfl, h, hag⟩
    | cons i rest =>
      dsimp only
      have hi := h.inv.agenda i (by rw [hag]; exact List.mem_cons_self ..)
      obtain ⟨k, hk⟩ := Option.isSome_iff_exists.mp hi
      obtain ⟨_, q, hq, rfl⟩ := h.inv.places i k hk
      obtain ⟨l, h1, h2⟩ := transitionsFrom_ok hR hS hw hq
      rw [h1]
      have hnd := h.nodup
      rw [hag, List.nodup_cons] at hnd
      have h0 : Half M N pos q (fun _ => False) { U with agenda := rest } := by
        refine ⟨hnd.1, hnd.2, ?_⟩
        have hinv := h.inv.congr (full' := fun r a => (r = q ∧ False) ∨
          (r ≠ q ∧ r < N.size ∧ (mapGet U.map (pos r)).isSome ∧ pos r ∉ rest ∧ a ∈ N.arcs r)) (by
            intro r a
            rw [hag, List.mem_cons]
            constructor
            · rintro ⟨h3, h4, h5, h6⟩
              refine .inr ⟨?_, h3, h4, fun h => h5 (.inr h), h6⟩
              rintro rfl
              exact h5 (.inl rfl)
            · rintro (⟨_, h3⟩ | ⟨h3, h4, h5, h6, h7⟩)
              · exact h3.elim
              · refine ⟨h4, h5, ?_, h7⟩
                rintro (h8 | h8)
                · exact h3 (hP r h4 q hq h8)
                · exact h6 h8)
        exact ⟨hinv.places, hinv.apart, hinv.nodup, hinv.start,
          (fun i hi => hinv.agenda i (by rw [hag]; exact List.mem_cons_of_mem _ hi)), hinv.final, hinv.beyond, hinv.added, hinv.arcs, hinv.alpha⟩
      obtain ⟨V, p, e1, e2, e3, e4, _, e6⟩ := steps_ok hR hS hP hq l h0 hk h2.1
      have hget : (mapGet U.map (pos q)).getD 0 = k := by rw [hk]; rfl
      show ∃ W, ((Unfolding.steps M ((mapGet U.map (pos q)).getD 0) l { U with agenda := rest }).bind (Unfolding.run M count fuel)) = .ok W ∧ _
      rw [hget, e1]
      have hp : ∀ a, p a ↔ a ∈ N.arcs q := by
        intro a
        constructor
        · intro hpa
          exact (e2.inv.added q a (.inl ⟨rfl, hpa⟩)).1
        · intro ha
          obtain ⟨j, hj, hja⟩ := h2.2 a ha
          exact e6 j hj a ha hja
      have hV : Whole M N pos V := by
        refine ⟨e2.nodup, e2.inv.congr fun r a => ?_⟩
        constructor
        · rintro (⟨rfl, h3⟩ | ⟨_, h3⟩)
          · exact ⟨hq, by rw [e3]; rfl, e2.notOn, (hp a).mp h3⟩
          · exact h3
        · rintro ⟨h3, h4, h5, h6⟩
          by_cases hr : r = q
          · subst hr
            exact .inl ⟨rfl, (hp a).mpr h6⟩
          · exact .inr ⟨hr, h3, h4, h5, h6⟩
      refine run_ok hR hS hw hP fuel hV ?_
      rw [e4]
      unfold Unfolding.todo at hf ⊢
      rw [hag, List.length_cons] at hf
      show rest.length + (N.size - U.map.length) < fuel
      omega

/-- The graph has the paths of the net. -/
theorem whole_paths {U : Unfolding} (hR : Represents M n N pos) (h : Whole M N pos U) (hag : U.agenda = []) :
    (∀ {q r : Nat} {A : List NArc}, NPath N q A r → q < N.size → ∀ k, mapGet U.map (pos q) = some k →
      ∃ j, r < N.size ∧ mapGet U.map (pos r) = some j ∧
        Path U.graph k (A.map fun a => (M.name a.input, M.name a.output)) (pathWeight A) j) ∧
    ∀ {k j : Nat} {l : List (Sym × Sym)} {w : Int}, Path U.graph k l w j → ∀ q < N.size, mapGet U.map (pos q) = some k →
      ∃ A r, NPath N q A r ∧ r < N.size ∧ mapGet U.map (pos r) = some j ∧ l = A.map (fun a => (M.name a.input, M.name a.output)) ∧ w = pathWeight A := by
  refine ⟨?_, ?_⟩
  · intro q r A hA
    induction hA with
    | nil => exact fun hq k hk => ⟨k, hq, hk, .nil k⟩
    | @cons q r a A ha _ ih =>
      intro hq k hk
      have hfull : q < N.size ∧ (mapGet U.map (pos q)).isSome = true ∧ pos q ∉ U.agenda ∧ a ∈ N.arcs q :=
        ⟨hq, by rw [hk]; rfl, by rw [hag]; simp, ha⟩
      obtain ⟨j, hj⟩ := Option.isSome_iff_exists.mp (h.inv.added q a hfull).2
      obtain ⟨j', h1, h2, h3⟩ := ih (hR.closed q hq a ha) j hj
      have hb := (h.inv.arcs q k hq hk (image M pos U.map a)).mpr ⟨a, hfull, rfl⟩
      refine ⟨j', h1, h2, ?_⟩
      have htar : (image M pos U.map a).target = j := by
        unfold image
        rw [hj]
        rfl
      exact Path.cons hb (htar ▸ h3)
  · intro k j l w hp
    induction hp with
    | nil k => exact fun q hq hk => ⟨[], q, .nil, hq, hk, rfl, rfl⟩
    | @cons k j b l w hb _ ih =>
      intro q hq hk
      obtain ⟨a, hfull, rfl⟩ := (h.inv.arcs q k hq hk b).mp hb
      obtain ⟨i, hi⟩ := Option.isSome_iff_exists.mp (h.inv.added q a hfull).2
      have ha := hfull.2.2.2
      obtain ⟨A, r, h1, h2, h3, rfl, rfl⟩ := ih a.target (hR.closed q hq a ha) (by
        show _ = some ((mapGet U.map (pos a.target)).getD 0)
        rw [hi]
        rfl)
      exact ⟨a :: A, r, .cons ha h1, h2, h3, rfl, rfl⟩

/-- The graph that is made accepts what the net accepts. -/
theorem toBasic_ok (hR : Represents M n N pos) (hS : SymbolsOK M.kinds n N) (hw : Walkable M n N pos count) (hP : Apart N pos) {fuel : Nat} (hf : N.size < fuel) :
    ∃ g, toBasic M count fuel = .ok g ∧ (∀ x, x ∈ g.alphabet ↔ x ∈ Graph.init.alphabet ∨ x ∈ M.alphabet.table.map asText) ∧ ∀ l w, Accepts g l w ↔ ∃ A q f, NPath N 0 A q ∧ N.final q = some f ∧
      l = A.map (fun a => (M.name a.input, M.name a.output)) ∧ w = pathWeight A + f := by
  unfold toBasic Unfolding.addState
  have h0 := placeFinal_ok hR hR.nonempty
  rw [hR.start] at h0
  rw [h0]
  show ∃ g, (Unfolding.run M count fuel
    ⟨withFinal (Graph.init.addSymbols (M.alphabet.table.map asText)) 0 (N.final 0), mapPut [] 0 0, [0], 0⟩).bind (fun V => .ok V.graph) = .ok g ∧ _
  have hfinal : ∀ k, (withFinal (Graph.init.addSymbols (M.alphabet.table.map asText)) 0 (N.final 0)).final k = if k = 0 then N.final 0 else none := by
    intro k
    cases hf : N.final 0 with
    | none =>
      rw [ite_self]
      rfl
    | some w =>
      show Graph.final (Graph.setFinal _ 0 w) k = _
      rw [Graph.final_setFinal]
      by_cases hk : k = 0
      · rw [if_pos hk, if_pos hk]
      · rw [if_neg hk, if_neg hk]
        rfl
  have harcs : ∀ k, (withFinal (Graph.init.addSymbols (M.alphabet.table.map asText)) 0 (N.final 0)).arcs k = [] := by
    intro k
    have : (Graph.init.addSymbols (M.alphabet.table.map asText)).arcs k = [] := by
      cases k with
      | zero => rfl
      | succ k => rfl
    cases hf : N.final 0 with
    | none => exact this
    | some w =>
      show Graph.arcs (Graph.setFinal _ 0 w) k = _
      rw [Graph.arcs_setFinal, Graph.arcs_addStateN]
      exact this
  have hmap : ∀ i, mapGet (mapPut ([] : List (Nat × Nat)) 0 0) i = if i = 0 then some 0 else none := by
    intro i
    rw [mapGet_put]
    rfl
  have halpha : ∀ x, x ∈ (withFinal (Graph.init.addSymbols (M.alphabet.table.map asText)) 0 (N.final 0)).alphabet ↔
      x ∈ Graph.init.alphabet ∨ x ∈ M.alphabet.table.map asText := by
    intro x
    rw [withFinal_alphabet]
    show x ∈ (M.alphabet.table.map asText).foldl setInsert Graph.init.alphabet ↔ _
    rw [mem_foldl_setInsert]
    exact or_comm
  generalize (withFinal (Graph.init.addSymbols (M.alphabet.table.map asText)) 0 (N.final 0)) = G at hfinal harcs halpha
  have hW : Whole M N pos ⟨G, mapPut [] 0 0, [0], 0⟩ := by
    have hnone : ∀ r a, ¬ (r < N.size ∧ (mapGet (mapPut ([] : List (Nat × Nat)) 0 0) (pos r)).isSome = true ∧ pos r ∉ [0] ∧ a ∈ N.arcs r) := by
      rintro r a ⟨_, h1, h2, _⟩
      rw [hmap] at h1
      split at h1
      · rename_i h
        exact h2 (by rw [h]; simp)
      · cases h1
    refine ⟨by simp, ?_, ?_, ?_, ?_, ?_, ?_, ?_, ?_, ?_, halpha⟩
    · intro i k hi
      dsimp only at hi ⊢
      rw [hmap] at hi
      split at hi
      · rename_i h
        injection hi with hi
        exact ⟨by omega, 0, hR.nonempty, h.trans hR.start.symm⟩
      · cases hi
    · intro i j k hi hj
      dsimp only at hi hj
      rw [hmap] at hi hj
      split at hi <;> split at hj
      · omega
      · cases hj
      · cases hi
      · cases hi
    · simp [mapPut]
    · dsimp only
      rw [hR.start, hmap, if_pos rfl]
    · intro i hi
      dsimp only at hi ⊢
      rw [hmap, if_pos (by simpa using hi)]
      rfl
    · intro q k hq hk
      dsimp only at hk ⊢
      rw [hmap] at hk
      split at hk
      · rename_i h
        injection hk with hk
        rw [hfinal, if_pos hk.symm, hP q hq 0 hR.nonempty (h.trans hR.start.symm)]
      · cases hk
    · intro k hk
      dsimp only at hk ⊢
      rw [hfinal, harcs, if_neg (by omega)]
      exact ⟨rfl, rfl⟩
    · intro r a ha
      exact absurd ha (hnone r a)
    · intro q k hq hk b
      dsimp only
      rw [harcs]
      exact ⟨(fun h => by cases h), fun ⟨a, ha, _⟩ => absurd ha (hnone q a)⟩
  obtain ⟨V, e1, e2, e3⟩ := run_ok hR hS hw hP fuel hW (by
    unfold Unfolding.todo
    show [0].length + (N.size - (mapPut ([] : List (Nat × Nat)) 0 0).length) < fuel
    have : (mapPut ([] : List (Nat × Nat)) 0 0).length = 1 := rfl
    have := hR.nonempty
    rw [List.length_singleton]
    omega)
  refine ⟨V.graph, ?_, e2.inv.alpha, ?_⟩
  · rw [e1]
    rfl
  · intro l w
    obtain ⟨p1, p2⟩ := whole_paths hR e2 e3
    constructor
    · rintro ⟨k, v, f, h1, h2, rfl⟩
      obtain ⟨A, q, g1, g2, g3, g4, rfl⟩ := p2 h1 0 hR.nonempty e2.inv.start
      refine ⟨A, q, f, g1, ?_, g4, rfl⟩
      rw [← e2.inv.final q k g2 g3]
      exact h2
    · rintro ⟨A, q, f, h1, h2, rfl, rfl⟩
      obtain ⟨k, g1, g2, g3⟩ := p1 h1 hR.nonempty 0 e2.inv.start
      refine ⟨k, pathWeight A, f, g3, ?_, rfl⟩
      rw [e2.inv.final q k g1 g2]
      exact h2

end

end Hfst.Ol
