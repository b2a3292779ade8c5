import Verif.Model.Intersect
import Verif.Spec.Path
import Verif.Lemmas.Graph
import Mathlib.Tactic.ByContra
import Mathlib.Tactic.SplitIfs
import Mathlib.Data.List.Nodup
import Mathlib.Data.List.Perm.Subperm
import Mathlib.Data.List.ProdSigma

/-!
# C28: intersection
-/
namespace Hfst.Basic
open Graph

/-! ## The matches that the search finds -/

/-- The pairs of transitions that the loop handles, in order. -/
def pairs (num : Sym → Nat) : List Arc → List Arc → List (Arc × Arc)
  | [], _ => []
  | a :: as, start =>
    match findMatch num a start start with
    | (none, start') => pairs num as start'
    | (some b, start') => (a, b) :: pairs num as start'

/-- Same symbols. -/
def SameLabel (a b : Arc) : Prop := a.inp = b.inp ∧ a.out = b.out

theorem labelLt_iff {num : Sym → Nat} {a b : Arc} : labelLt num a b = true ↔
    num a.inp < num b.inp ∨ (num a.inp = num b.inp ∧ num a.out < num b.out) := by
  unfold labelLt
  split_ifs <;> simp <;> omega

theorem same_of_not_lt {num : Sym → Nat} (hnum : Function.Injective num) {a b : Arc} (h1 : ¬ labelLt num a b = true)
    (h2 : ¬ labelLt num b a = true) : SameLabel a b := by
  rw [labelLt_iff] at h1 h2
  exact ⟨hnum (by omega), hnum (by omega)⟩

theorem findMatch_mem {num : Sym → Nat} {a : Arc} : ∀ (start rest : List Arc) (o : Option Arc) (start' : List Arc),
    findMatch num a start rest = (o, start') → (∀ b ∈ rest, b ∈ start) →
    (∀ b, o = some b → b ∈ rest ∧ ¬ labelLt num b a = true ∧ ¬ labelLt num a b = true) ∧ ∀ b ∈ start', b ∈ start
  | start, [], o, start', h, _ => by
    rw [findMatch] at h
    cases h
    exact ⟨by simp, fun _ h => h⟩
  | start, c :: rest, o, start', h, hr => by
    rw [findMatch] at h
    split_ifs at h with h1 h2
    · obtain ⟨k1, k2⟩ := findMatch_mem start rest o start' h (fun b hb => hr b (by simp [hb]))
      exact ⟨fun b hb => ⟨by simp [(k1 b hb).1], (k1 b hb).2⟩, k2⟩
    · cases h
      exact ⟨by simp, hr⟩
    · cases h
      refine ⟨?_, fun b hb => hr b (by simp [hb])⟩
      intro b hb
      cases hb
      exact ⟨by simp, h1, h2⟩

theorem pairs_mem {num : Sym → Nat} : ∀ (l start : List Arc), ∀ x ∈ pairs num l start,
    x.1 ∈ l ∧ x.2 ∈ start ∧ ¬ labelLt num x.2 x.1 = true ∧ ¬ labelLt num x.1 x.2 = true
  | [], _, x, hx => by simp [pairs] at hx
  | a :: as, start, x, hx => by
    rw [pairs] at hx
    split at hx
    · rename_i start' h
      obtain ⟨_, k2⟩ := findMatch_mem start start _ _ h (fun _ h => h)
      obtain ⟨h1, h2, h3⟩ := pairs_mem as start' x hx
      exact ⟨by simp [h1], k2 _ h2, h3⟩
    · rename_i b start' h
      obtain ⟨k1, k2⟩ := findMatch_mem start start _ _ h (fun _ h => h)
      rcases List.mem_cons.mp hx with rfl | hx
      · obtain ⟨h1, h2, h3⟩ := k1 b rfl
        exact ⟨by simp, h1, h2, h3⟩
      · obtain ⟨h1, h2, h3⟩ := pairs_mem as start' x hx
        exact ⟨by simp [h1], k2 _ h2, h3⟩

theorem lt_of_same {num : Sym → Nat} {a b c : Arc} (h : SameLabel b c) (hl : labelLt num a b = true) :
    labelLt num a c = true := by
  rw [labelLt_iff] at hl ⊢
  rw [← h.1, ← h.2]; exact hl

theorem not_lt_of_same {num : Sym → Nat} {a b : Arc} (h : SameLabel a b) : ¬ labelLt num a b = true := by
  rw [labelLt_iff, h.1, h.2]; omega

theorem lt_trans' {num : Sym → Nat} {a b c : Arc} (h : labelLt num a b = true) (h' : labelLt num b c = true) :
    labelLt num a c = true := by
  rw [labelLt_iff] at h h' ⊢; omega

theorem findMatch_complete {num : Sym → Nat} (hnum : Function.Injective num) {a : Arc} :
    ∀ (start rest : List Arc) (o : Option Arc) (start' : List Arc), findMatch num a start rest = (o, start') →
    rest.Pairwise (fun x y => labelLt num x y = true) → (∀ b ∈ rest, b ∈ start) →
    (∀ c ∈ rest, SameLabel a c → o = some c) ∧ (∀ c ∈ rest, labelLt num a c = true → c ∈ start')
  | start, [], o, start', h, _, _ => by simp
  | start, b :: rest, o, start', h, hp, hr => by
    obtain ⟨hb, hp⟩ := List.pairwise_cons.mp hp
    rw [findMatch] at h
    split_ifs at h with h1 h2
    · obtain ⟨k1, k2⟩ := findMatch_complete hnum start rest o start' h hp (fun b hb => hr b (by simp [hb]))
      constructor
      · intro c hc hs
        rcases List.mem_cons.mp hc with rfl | hc
        · exact absurd h1 (not_lt_of_same ⟨hs.1.symm, hs.2.symm⟩)
        · exact k1 c hc hs
      · intro c hc hl
        rcases List.mem_cons.mp hc with rfl | hc
        · rw [labelLt_iff] at h1 hl; omega
        · exact k2 c hc hl
    · cases h
      constructor
      · intro c hc hs
        rcases List.mem_cons.mp hc with rfl | hc
        · exact absurd h2 (not_lt_of_same hs)
        · have := lt_trans' h2 (hb c hc)
          exact absurd this (not_lt_of_same hs)
      · exact fun c hc _ => hc
    · cases h
      have hab := same_of_not_lt hnum h2 h1
      constructor
      · intro c hc hs
        rcases List.mem_cons.mp hc with rfl | hc
        · rfl
        · have := hb c hc
          exact absurd this (not_lt_of_same ⟨hab.1.symm.trans hs.1, hab.2.symm.trans hs.2⟩)
      · intro c hc hl
        rcases List.mem_cons.mp hc with rfl | hc
        · exact absurd hl h2
        · exact hc

theorem findMatch_suffix {num : Sym → Nat} {a : Arc} : ∀ (start rest : List Arc), rest <:+ start →
    (findMatch num a start rest).2 <:+ start
  | start, [], _ => List.suffix_rfl
  | start, b :: rest, h => by
    rw [findMatch]
    split_ifs
    · exact findMatch_suffix start rest ((List.suffix_cons b rest).trans h)
    · exact h
    · exact (List.suffix_cons b rest).trans h

theorem pairs_complete {num : Sym → Nat} (hnum : Function.Injective num) : ∀ (l start : List Arc),
    l.Pairwise (fun x y => labelLt num x y = true) → start.Pairwise (fun x y => labelLt num x y = true) →
    ∀ a ∈ l, ∀ b ∈ start, SameLabel a b → (a, b) ∈ pairs num l start
  | [], _, _, _, a, ha, _, _, _ => by simp at ha
  | a0 :: as, start, hl, hs, a, ha, b, hb, hab => by
    obtain ⟨hl0, hl⟩ := List.pairwise_cons.mp hl
    rw [pairs]
    have hsuf := findMatch_suffix (num := num) (a := a0) start start List.suffix_rfl
    split
    · rename_i start' h
      rw [h] at hsuf
      obtain ⟨k1, k2⟩ := findMatch_complete hnum start start _ _ h hs (fun _ h => h)
      have hs' := hs.sublist hsuf.sublist
      rcases List.mem_cons.mp ha with rfl | ha
      · have := k1 b hb hab
        cases this
      · exact pairs_complete hnum as start' hl hs' a ha b (k2 b hb (lt_of_same hab (hl0 a ha))) hab
    · rename_i c start' h
      rw [h] at hsuf
      obtain ⟨k1, k2⟩ := findMatch_complete hnum start start _ _ h hs (fun _ h => h)
      have hs' := hs.sublist hsuf.sublist
      rcases List.mem_cons.mp ha with rfl | ha
      · have := k1 b hb hab
        cases this
        simp
      · exact List.mem_cons_of_mem _
          (pairs_complete hnum as start' hl hs' a ha b (k2 b hb (lt_of_same hab (hl0 a ha))) hab)

/-! ## What the construction gives -/

section construct
variable {num : Sym → Nat} {g1 g2 : Graph}

/-- The transition for a match; `order` lists the pairs of states by their numbers. -/
def arcFor (order : List (Nat × Nat)) (x : Arc × Arc) : Arc :=
  ⟨order.idxOf (x.1.target, x.2.target), x.1.inp, x.1.out, x.1.weight + x.2.weight⟩

/-- The final weight of a pair of states. -/
def pairFinal (g1 g2 : Graph) (p : Nat × Nat) : Option Int :=
  match g1.final p.1, g2.final p.2 with
  | some w1, some w2 => some (if p = (0, 0) then min w1 w2 else w1 + w2)
  | _, _ => none

/-- The numbering of the pairs. -/
structure Good (g1 g2 : Graph) (order : List (Nat × Nat)) (st : IState) : Prop where
  nodup : order.Nodup
  start : order[0]? = some (0, 0)
  len : st.graph.states.length = order.length
  map : ∀ p, mapGet st.map p = if p ∈ order then some (order.idxOf p) else none
  bounded : ∀ p ∈ order, p.1 < g1.states.length ∧ p.2 < g2.states.length
  fin : ∀ t, st.graph.final t = (order[t]?).bind (pairFinal g1 g2)

/-- State `t` has all its transitions. -/
def Complete (num : Sym → Nat) (g1 g2 : Graph) (order : List (Nat × Nat)) (g : Graph) (t : Nat) : Prop :=
  ∀ p, order[t]? = some p → g.arcs t = (pairs num (g1.arcs p.1) (g2.arcs p.2)).map (arcFor order) ∧
    ∀ x ∈ pairs num (g1.arcs p.1) (g2.arcs p.2), (x.1.target, x.2.target) ∈ order

theorem arcFor_mono {order order' : List (Nat × Nat)} (h : order <+: order') {x : Arc × Arc}
    (hx : (x.1.target, x.2.target) ∈ order) : arcFor order' x = arcFor order x := by
  obtain ⟨r, rfl⟩ := h
  unfold arcFor
  rw [List.idxOf_append_of_mem hx]

theorem Complete.mono {order order' : List (Nat × Nat)} {g g' : Graph} {t : Nat} (h : Complete num g1 g2 order g t)
    (ho : order <+: order') (ht : t < order.length) (hg : g'.arcs t = g.arcs t) : Complete num g1 g2 order' g' t := by
  intro p hp
  have hp' : order[t]? = some p := by
    obtain ⟨r, rfl⟩ := ho
    rwa [List.getElem?_append_left ht] at hp
  obtain ⟨h1, h2⟩ := h p hp'
  refine ⟨?_, fun x hx => ho.subset (h2 x hx)⟩
  rw [hg, h1]
  exact List.map_congr_left fun x hx => (arcFor_mono ho (h2 x hx)).symm

theorem order_length {order : List (Nat × Nat)} (hn : order.Nodup)
    (hb : ∀ p ∈ order, p.1 < g1.states.length ∧ p.2 < g2.states.length) :
    order.length ≤ g1.states.length * g2.states.length := by
  have hsub : order ⊆ (List.range g1.states.length) ×ˢ (List.range g2.states.length) := by
    intro p hp
    obtain ⟨a, b⟩ := p
    exact List.mem_product.mpr ⟨List.mem_range.mpr (hb _ hp).1, List.mem_range.mpr (hb _ hp).2⟩
  have := (hn.subperm hsub).length_le
  simpa [List.length_product] using this

/-- What a call for the last state of `order` does. -/
def CallOk (num : Sym → Nat) (g1 g2 : Graph) (call : Nat → Nat → Nat → IState → Outcome IState)
    (order : List (Nat × Nat)) : Prop :=
  ∀ p1 p2 s st, Good g1 g2 order st → order.length = s + 1 → order[s]? = some (p1, p2) →
    (∀ t, t ∈ st.agenda ↔ t < s) → st.graph.arcs s = [] →
    ∃ order' st', call p1 p2 s st = .ok st' ∧ order <+: order' ∧ Good g1 g2 order' st' ∧
      (∀ t, t ∈ st'.agenda ↔ t < order'.length) ∧
      (∀ t, s ≤ t → t < order'.length → Complete num g1 g2 order' st'.graph t) ∧
      ∀ t < s, st'.graph.arcs t = st.graph.arcs t

theorem handle_known {order : List (Nat × Nat)} {st : IState} (h : Good g1 g2 order st) {a b : Arc} {s : Nat}
    (hs : s < order.length) (hp : (a.target, b.target) ∈ order) :
    ∃ st', handleMatch g1 a g2 b st s = (st', order.idxOf (a.target, b.target)) ∧ Good g1 g2 order st' ∧
      st'.agenda = st.agenda ∧
      ∀ t, st'.graph.arcs t = if t = s then st.graph.arcs s ++ [arcFor order (a, b)] else st.graph.arcs t := by
  have hm := h.map (a.target, b.target)
  rw [if_pos hp] at hm
  have hlt := List.idxOf_lt_length_of_mem hp
  have e : handleMatch g1 a g2 b st s = ({ st with graph := st.graph.addTransition s (arcFor order (a, b)) },
      order.idxOf (a.target, b.target)) := by
    unfold handleMatch findTarget
    rw [hm]
    rfl
  refine ⟨_, e, ⟨h.nodup, h.start, ?_, h.map, h.bounded, ?_⟩, rfl, ?_⟩
  · have := h.len
    dsimp only
    rw [length_addTransition]
    simp only [arcFor]
    omega
  · intro t
    dsimp only
    rw [final_addTransition]
    exact h.fin t
  · intro t
    dsimp only
    rw [arcs_addTransition]

theorem handle_new {order : List (Nat × Nat)} {st : IState} (h : Good g1 g2 order st) {a b : Arc} {s : Nat}
    (hs : s < order.length) (hp : (a.target, b.target) ∉ order) (ha : a.target < g1.states.length)
    (hb : b.target < g2.states.length) :
    ∃ st', handleMatch g1 a g2 b st s = (st', order.length) ∧ Good g1 g2 (order ++ [(a.target, b.target)]) st' ∧
      st'.agenda = st.agenda ∧
      ∀ t, st'.graph.arcs t =
        if t = s then st.graph.arcs s ++ [arcFor (order ++ [(a.target, b.target)]) (a, b)] else st.graph.arcs t := by
  have hm := h.map (a.target, b.target)
  rw [if_neg hp] at hm
  have hl := h.len
  have hidx : (order ++ [(a.target, b.target)]).idxOf (a.target, b.target) = order.length := by
    rw [List.idxOf_append_of_notMem hp]; simp
  have h0 : (a.target, b.target) ≠ (0, 0) := by
    intro e
    rw [e] at hp
    exact hp (List.mem_of_getElem? h.start)
  have hpos : 0 < order.length := by omega
  -- the graph
  have key : ∃ g : Graph, handleMatch g1 a g2 b st s =
      ({ graph := g, map := mapPut st.map (a.target, b.target) order.length, agenda := st.agenda }, order.length) ∧
      g.states.length = order.length + 1 ∧
      (∀ t, g.final t = if t = order.length then pairFinal g1 g2 (a.target, b.target) else st.graph.final t) ∧
      (∀ t, g.arcs t = if t = s then st.graph.arcs s ++ [⟨order.length, a.inp, a.out, a.weight + b.weight⟩]
        else st.graph.arcs t) := by
    have hfin : st.graph.final order.length = none := by rw [h.fin, List.getElem?_eq_none (Nat.le_refl _)]; rfl
    unfold handleMatch findTarget pairFinal
    rw [hm]
    dsimp only
    rw [addState_snd, hl]
    rw [if_pos rfl]
    cases e1 : g1.final a.target with
    | none =>
      refine ⟨_, rfl, ?_, ?_, ?_⟩
      · rw [length_addTransition, length_addState, hl]; dsimp only; omega
      · intro t
        rw [final_addTransition, final_addState]
        split_ifs with ht
        · rw [ht]; exact hfin
        · rfl
      · intro t
        rw [arcs_addTransition]
        simp
    | some w1 =>
      cases e2 : g2.final b.target with
      | none =>
        refine ⟨_, rfl, ?_, ?_, ?_⟩
        · rw [length_addTransition, length_addState, hl]; dsimp only; omega
        · intro t
          rw [final_addTransition, final_addState]
          split_ifs with ht
          · rw [ht]; exact hfin
          · rfl
        · intro t
          rw [arcs_addTransition]
          simp
      | some w2 =>
        refine ⟨_, rfl, ?_, ?_, ?_⟩
        · dsimp only
          rw [length_setFinal, length_addTransition, length_addState, hl]; dsimp only; omega
        · intro t
          dsimp only
          rw [final_setFinal, final_addTransition, final_addState, if_neg h0]
        · intro t
          dsimp only
          rw [arcs_setFinal, arcs_addTransition]
          simp
  obtain ⟨g, e, k1, k2, k3⟩ := key
  refine ⟨_, e, ⟨?_, ?_, ?_, ?_, ?_, ?_⟩, rfl, ?_⟩
  · rw [List.nodup_append]
    exact ⟨h.nodup, by simp, by
      intro x hx y hy e
      rw [List.mem_singleton] at hy
      rw [e, hy] at hx
      exact hp hx⟩
  · rw [List.getElem?_append_left hpos]; exact h.start
  · rw [k1]; simp
  · intro p
    dsimp only
    rw [mapGet_put, h.map]
    by_cases e : p = (a.target, b.target)
    · rw [if_pos e, if_pos (by simp [e]), e, hidx]
    · rw [if_neg e]
      by_cases hpo : p ∈ order
      · rw [if_pos hpo, if_pos (by simp [hpo]), List.idxOf_append_of_mem hpo]
      · rw [if_neg hpo, if_neg (by simp [hpo, e])]
  · intro p hp
    rw [List.mem_append, List.mem_singleton] at hp
    rcases hp with hp | rfl
    · exact h.bounded p hp
    · exact ⟨ha, hb⟩
  · intro t
    dsimp only
    rw [k2, List.getElem?_append]
    by_cases ht : t = order.length
    · rw [if_pos ht, if_neg (by omega), ht]; simp
    · rw [if_neg ht, h.fin]
      split_ifs with hlt
      · rfl
      · rw [List.getElem?_eq_none (by omega), List.getElem?_eq_none (by simp; omega)]
  · intro t
    dsimp only
    rw [k3]
    unfold arcFor
    rw [hidx]

theorem matchLoop_spec (call : Nat → Nat → Nat → IState → Outcome IState) (n s : Nat)
    (hw1 : ∀ s, ∀ a ∈ g1.arcs s, a.target < g1.states.length) (hw2 : ∀ s, ∀ a ∈ g2.arcs s, a.target < g2.states.length)
    (hcall : ∀ order, n ≤ order.length → CallOk num g1 g2 call order) (p1 p2 : Nat) :
    ∀ (l start : List Arc) (order : List (Nat × Nat)) (st : IState), Good g1 g2 order st → n ≤ order.length + 1 →
      s < order.length → (∀ t, t ∈ st.agenda ↔ t < order.length) → (∀ a ∈ l, a ∈ g1.arcs p1) →
      (∀ a ∈ start, a ∈ g2.arcs p2) →
      ∃ order' st', matchLoop call num g1 g2 s l start st = .ok st' ∧ order <+: order' ∧ Good g1 g2 order' st' ∧
        (∀ t, t ∈ st'.agenda ↔ t < order'.length) ∧
        (∀ t, order.length ≤ t → t < order'.length → Complete num g1 g2 order' st'.graph t) ∧
        (∀ t < order.length, t ≠ s → st'.graph.arcs t = st.graph.arcs t) ∧
        st'.graph.arcs s = st.graph.arcs s ++ (pairs num l start).map (arcFor order') ∧
        ∀ x ∈ pairs num l start, (x.1.target, x.2.target) ∈ order'
  | [], start, order, st, h, _, hs, hag, _, _ =>
    ⟨order, st, rfl, List.prefix_rfl, h, hag, fun t h1 h2 => by omega, fun _ _ _ => rfl, by simp [pairs], by simp [pairs]⟩
  | a :: as, start, order, st, h, hn, hs, hag, hl, hst => by
    rw [matchLoop, pairs]
    rcases hfm : findMatch num a start start with ⟨_ | b, start'⟩
    · dsimp only
      obtain ⟨_, k2⟩ := findMatch_mem start start _ _ hfm (fun _ h => h)
      exact matchLoop_spec call n s hw1 hw2 hcall p1 p2 as start' order st h hn hs hag
        (fun x hx => hl x (by simp [hx])) (fun x hx => hst x (k2 x hx))
    · obtain ⟨k1, k2⟩ := findMatch_mem start start _ _ hfm (fun _ h => h)
      have ha := hw1 _ _ (hl a (by simp))
      have hb := hw2 _ _ (hst b (k1 b rfl).1)
      have ih := fun order st h hn hs hag => matchLoop_spec call n s hw1 hw2 hcall p1 p2 as start' order st h hn hs hag
        (fun x hx => hl x (by simp [hx])) (fun x hx => hst x (k2 x hx))
      dsimp only
      by_cases hp : (a.target, b.target) ∈ order
      · obtain ⟨st1, e, h1, hag1, harc⟩ := handle_known h (a := a) (b := b) hs hp
        rw [e]
        dsimp only
        rw [if_pos (by rw [hag1, hag]; exact List.idxOf_lt_length_of_mem hp)]
        obtain ⟨order', st', e', j1, j2, j3, j4, j5, j6, j7⟩ := ih order st1 h1 hn hs (by rw [hag1]; exact hag)
        refine ⟨order', st', e', j1, j2, j3, j4, ?_, ?_, ?_⟩
        · intro t ht hts
          rw [j5 t ht hts, harc, if_neg hts]
        · rw [j6, harc, if_pos rfl, List.map_cons, arcFor_mono (x := (a, b)) j1 hp]
          simp
        · intro x hx
          rcases List.mem_cons.mp hx with rfl | hx
          · exact j1.subset hp
          · exact j7 x hx
      · obtain ⟨st1, e, h1, hag1, harc⟩ := handle_new h (a := a) (b := b) hs hp ha hb
        rw [e]
        dsimp only
        rw [if_neg (by rw [hag1, hag]; omega)]
        obtain ⟨order2, st2, e2, i1, i2, i3, i4, i5⟩ := hcall (order ++ [(a.target, b.target)]) (by simpa using hn)
          a.target b.target order.length st1 h1 (by simp) (by simp) (by rw [hag1]; exact hag) (by
            rw [harc, if_neg (by omega)]
            exact arcs_eq_nil _ (by rw [h.len]; exact Nat.le_refl _))
        rw [e2]
        dsimp only
        have hlen2 : order.length + 1 ≤ order2.length := by simpa using i1.length_le
        obtain ⟨order', st', e', j1, j2, j3, j4, j5, j6, j7⟩ := ih order2 st2 i2 (by omega) (by omega) i3
        have hp2 : (a.target, b.target) ∈ order ++ [(a.target, b.target)] := by simp
        refine ⟨order', st', e', ((List.prefix_append _ _).trans i1).trans j1, j2, j3, ?_, ?_, ?_, ?_⟩
        · intro t ht ht'
          by_cases h2 : t < order2.length
          · exact (i4 t ht h2).mono j1 h2 (j5 t h2 (by omega))
          · exact j4 t (by omega) ht'
        · intro t ht hts
          rw [j5 t (by omega) hts, i5 t ht, harc, if_neg hts]
        · rw [j6, i5 s hs, harc, if_pos rfl, List.map_cons, arcFor_mono (x := (a, b)) (i1.trans j1) hp2]
          simp
        · intro x hx
          rcases List.mem_cons.mp hx with rfl | hx
          · exact j1.subset (i1.subset hp2)
          · exact j7 x hx

theorem findMatches_spec
    (hw1 : ∀ s, ∀ a ∈ g1.arcs s, a.target < g1.states.length) (hw2 : ∀ s, ∀ a ∈ g2.arcs s, a.target < g2.states.length) :
    ∀ (n : Nat) (order : List (Nat × Nat)), g1.states.length * g2.states.length < n + order.length →
      CallOk num g1 g2 (findMatches num g1 g2 n) order
  | 0, order, hn => by
    intro p1 p2 s st h _ _ _ _
    have := order_length h.nodup h.bounded
    omega
  | n + 1, order, hn => by
    intro p1 p2 s st h hlen hs hag harc
    have hb := h.bounded _ (List.mem_of_getElem? hs)
    have e1 : g1.arcs p1 = g1.states[p1] := by simp [arcs, List.getElem?_eq_getElem hb.1]
    have e2 : g2.arcs p2 = g2.states[p2] := by simp [arcs, List.getElem?_eq_getElem hb.2]
    rw [findMatches, List.getElem?_eq_getElem hb.1, List.getElem?_eq_getElem hb.2]
    dsimp only
    rw [← e1, ← e2]
    have hag' : ∀ t, t ∈ setInsert st.agenda s ↔ t < order.length := by
      intro t
      rw [mem_setInsert, hag]; omega
    have h' : Good g1 g2 order { st with agenda := setInsert st.agenda s } :=
      ⟨h.nodup, h.start, h.len, h.map, h.bounded, h.fin⟩
    have hsp : order[s]? = some (p1, p2) := hs
    by_cases he : (g1.arcs p1).length = 0 ∨ (g2.arcs p2).length = 0
    · rw [if_pos he]
      refine ⟨order, _, rfl, List.prefix_rfl, h', hag', ?_, fun _ _ => rfl⟩
      intro t h1 h2
      obtain rfl : t = s := by omega
      have hnil : pairs num (g1.arcs p1) (g2.arcs p2) = [] := by
        rw [List.eq_nil_iff_forall_not_mem]
        intro x hx
        obtain ⟨k1, k2, _⟩ := pairs_mem _ _ x hx
        rcases he with he | he
        · rw [List.length_eq_zero_iff.mp he] at k1; simp at k1
        · rw [List.length_eq_zero_iff.mp he] at k2; simp at k2
      intro p hp
      rw [hsp] at hp
      obtain rfl : (p1, p2) = p := by injection hp
      dsimp only
      rw [hnil]
      exact ⟨harc, by simp⟩
    · rw [if_neg he]
      obtain ⟨order', st', e', j1, j2, j3, j4, j5, j6, j7⟩ := matchLoop_spec (num := num) (findMatches num g1 g2 n)
        (g1.states.length * g2.states.length + 1 - n) s hw1 hw2
        (fun o ho => findMatches_spec hw1 hw2 n o (by omega)) p1 p2 (g1.arcs p1) (g2.arcs p2) order _ h' (by omega) (by omega)
        hag' (fun _ h => h) (fun _ h => h)
      refine ⟨order', st', e', j1, j2, j3, ?_, fun t ht => j5 t (by omega) (by omega)⟩
      intro t h1 h2
      by_cases hts : t = s
      · subst hts
        intro p hp
        have : order'[t]? = some (p1, p2) := by
          obtain ⟨r, rfl⟩ := j1
          rw [List.getElem?_append_left (by omega)]; exact hsp
        rw [this] at hp
        obtain rfl : (p1, p2) = p := by injection hp
        refine ⟨?_, j7⟩
        rw [j6]
        dsimp only
        rw [harc]; rfl
      · exact j4 t (by omega) h2

/-- The result of the construction. -/
structure Product (num : Sym → Nat) (g1 g2 : Graph) (order : List (Nat × Nat)) (g : Graph) : Prop where
  nodup : order.Nodup
  start : order[0]? = some (0, 0)
  len : g.states.length = order.length
  fin : ∀ t, g.final t = (order[t]?).bind (pairFinal g1 g2)
  arcs : ∀ t, Complete num g1 g2 order g t

theorem product_sound (hnum : Function.Injective num) {order : List (Nat × Nat)} {g : Graph}
    (h : Product num g1 g2 order g) {s t : Nat} {l : List (Sym × Sym)} {w : Int} (hp : Path g s l w t) :
    ∀ p, order[s]? = some p → ∃ q w1 w2, order[t]? = some q ∧ Path g1 p.1 l w1 q.1 ∧ Path g2 p.2 l w2 q.2 ∧
      w = w1 + w2 := by
  induction hp with
  | nil s => exact fun p hp => ⟨p, 0, 0, hp, .nil _, .nil _, rfl⟩
  | cons ha _ ih =>
    intro p hp
    obtain ⟨h1, h2⟩ := h.arcs _ p hp
    rw [h1, List.mem_map] at ha
    obtain ⟨x, hx, rfl⟩ := ha
    obtain ⟨k1, k2, k3, k4⟩ := pairs_mem _ _ x hx
    obtain ⟨s1, s2⟩ := same_of_not_lt hnum k4 k3
    obtain ⟨q, w1, w2, hq, hp1, hp2, e⟩ := ih (x.1.target, x.2.target) (by
      have hlt := List.idxOf_lt_length_of_mem (h2 x hx)
      unfold arcFor
      rw [List.getElem?_eq_getElem hlt, List.getElem_idxOf])
    refine ⟨q, x.1.weight + w1, x.2.weight + w2, hq, .cons k1 hp1, ?_, ?_⟩
    · have := Path.cons k2 hp2
      rw [← s1, ← s2] at this
      exact this
    · rw [e]; simp only [arcFor]; omega

theorem product_complete {order : List (Nat × Nat)} {g : Graph} (h : Product num g1 g2 order g)
    (hall : ∀ s1 s2, ∀ a ∈ g1.arcs s1, ∀ b ∈ g2.arcs s2, SameLabel a b →
      (a, b) ∈ pairs num (g1.arcs s1) (g2.arcs s2)) {p1 q1 : Nat} {l : List (Sym × Sym)} {w1 : Int}
    (hp1 : Path g1 p1 l w1 q1) : ∀ (p2 q2 : Nat) (w2 : Int) (s : Nat), Path g2 p2 l w2 q2 → order[s]? = some (p1, p2) →
      ∃ t, order[t]? = some (q1, q2) ∧ Path g s l (w1 + w2) t := by
  induction hp1 with
  | nil p1 =>
    intro p2 q2 w2 s hp2 hs
    cases hp2
    exact ⟨s, hs, .nil s⟩
  | cons ha _ ih =>
    rename_i p1 q1 a l w1 _
    intro p2 q2 w2 s hp2 hs
    generalize hl : (a.inp, a.out) :: l = l' at hp2
    cases hp2 with
    | nil => cases hl
    | cons hb hp2 =>
      rename_i b _ w2
      obtain ⟨e1, rfl⟩ := List.cons.inj hl
      obtain ⟨e1, e2⟩ := Prod.mk.inj e1
      have hmem := hall p1 p2 a ha b hb ⟨e1, e2⟩
      obtain ⟨h1, h2⟩ := h.arcs _ _ hs
      have hin := h2 _ hmem
      have hlt := List.idxOf_lt_length_of_mem hin
      obtain ⟨t, ht, hp⟩ := ih b.target q2 w2 (order.idxOf (a.target, b.target)) hp2 (by
        rw [List.getElem?_eq_getElem hlt, List.getElem_idxOf])
      refine ⟨t, ht, ?_⟩
      have harc : arcFor order (a, b) ∈ g.arcs s := by
        rw [h1]; exact List.mem_map.mpr ⟨_, hmem, rfl⟩
      have := Path.cons harc hp
      have e : a.weight + w1 + (b.weight + w2) = a.weight + b.weight + (w1 + w2) := by omega
      rw [e, ← e1, ← e2]
      exact this

end construct

/-! ## Sorting -/

theorem mem_sortArcs {num : Sym → Nat} {g : Graph} {s : Nat} {a : Arc} : a ∈ (g.sortArcs num).arcs s ↔ a ∈ g.arcs s := by
  unfold Graph.sortArcs
  rw [arcs_map g (fun l => l.mergeSort (arcLe num)) (by simp) s g.alphabet]
  simp

theorem path_congr {g g' : Graph} (h : ∀ s a, a ∈ g.arcs s → a ∈ g'.arcs s) {s t : Nat} {l : List (Sym × Sym)} {w : Int}
    (hp : Path g s l w t) : Path g' s l w t := by
  induction hp with
  | nil => exact .nil _
  | cons ha _ ih => exact .cons (h _ _ ha) ih

theorem intersect_product {num : Sym → Nat} {g1 g2 : Graph} (hg1 : WF g1) (hg2 : WF g2) {fuel : Nat}
    (hf : g1.states.length * g2.states.length ≤ fuel) :
    ∃ order g, intersect fuel num g1 g2 = .ok g ∧ Product num (g1.sortArcs num) (g2.sortArcs num) order g := by
  have l1 : (g1.sortArcs num).states.length = g1.states.length := by simp [Graph.sortArcs]
  have l2 : (g2.sortArcs num).states.length = g2.states.length := by simp [Graph.sortArcs]
  have f1 : (g1.sortArcs num).final 0 = g1.final 0 := rfl
  have f2 : (g2.sortArcs num).final 0 = g2.final 0 := rfl
  obtain ⟨G, hG⟩ : ∃ G, G = startGraph (g1.sortArcs num) (g2.sortArcs num) := ⟨_, rfl⟩
  have hGf : ∀ t, G.final t = ([(0, 0)][t]?).bind (pairFinal (g1.sortArcs num) (g2.sortArcs num)) := by
    intro t
    have hi : Graph.init.final t = none := rfl
    cases t with
    | zero =>
      subst hG
      unfold startGraph
      simp only [List.getElem?_cons_zero, Option.bind_some, pairFinal]
      split
      · rename_i e1 e2
        rw [final_setFinal, e1, e2]; simp
      · rename_i hno
        rw [hi]
        split
        · rename_i e1 e2
          exact absurd e2 (hno _ _ e1)
        · rfl
    | succ t =>
      subst hG
      unfold startGraph
      simp only [List.getElem?_cons_succ, List.getElem?_nil, Option.bind_none]
      split
      · rw [final_setFinal, if_neg (by omega)]; exact hi
      · exact hi
  have hGl : G.states.length = 1 ∧ G.arcs 0 = [] := by
    subst hG
    unfold startGraph
    split
    · exact ⟨by rw [length_setFinal]; rfl, by rw [arcs_setFinal]; rfl⟩
    · exact ⟨rfl, rfl⟩
  have hgood : Good (g1.sortArcs num) (g2.sortArcs num) [(0, 0)] ⟨G, [((0, 0), 0)], []⟩ := by
    refine ⟨by simp, rfl, hGl.1, ?_, ?_, hGf⟩
    · intro p
      simp only [mapGet, List.find?_cons, List.find?_nil, List.mem_singleton]
      by_cases hp : (0, 0) = p
      · subst hp; simp
      · have : ¬ p = (0, 0) := fun e => hp e.symm
        simp [hp, this]
    · intro p hp
      rw [List.mem_singleton] at hp
      subst hp
      rw [l1, l2]
      exact ⟨hg1.nonempty, hg2.nonempty⟩
  obtain ⟨order, st, e, h1, h2, h3, h4, h5⟩ := findMatches_spec (num := num) (g1 := g1.sortArcs num) (g2 := g2.sortArcs num)
    (fun s a ha => by rw [l1]; exact hg1.targets s a (mem_sortArcs.mp ha))
    (fun s a ha => by rw [l2]; exact hg2.targets s a (mem_sortArcs.mp ha)) fuel [(0, 0)] (by rw [l1, l2]; simp; omega)
    0 0 0 _ hgood (by simp) (by simp) (by simp) hGl.2
  rw [hG] at e
  unfold intersect
  dsimp only
  rw [e]
  refine ⟨order, st.graph, rfl, h2.nodup, h2.start, h2.len, h2.fin, ?_⟩
  intro t
  by_cases ht : t < order.length
  · exact h4 t (by omega) ht
  · intro p hp
    rw [List.getElem?_eq_none (by omega)] at hp
    cases hp

/-! ## C28 -/

/-- Both transducers accept `l`, with weights that add up to `w`. -/
def BothAccept (g1 g2 : Graph) (l : List (Sym × Sym)) (w : Int) : Prop :=
  ∃ w1 w2, Accepts g1 l w1 ∧ Accepts g2 l w2 ∧ w = w1 + w2

/-- No two transitions from a state carry the same symbols. -/
def Deterministic (g : Graph) : Prop := ∀ s, (g.arcs s).Pairwise fun a b => ¬ SameLabel a b

/-- At every state, transitions with greater symbols (by the numbering) lead to states with greater or equal numbers. -/
def TargetsFollowLabels (num : Sym → Nat) (g : Graph) : Prop := ∀ s, ∀ a ∈ g.arcs s, ∀ b ∈ g.arcs s,
  (num a.inp < num b.inp ∨ (a.inp = b.inp ∧ num a.out < num b.out)) → a.target ≤ b.target

/-- Intersection always ends. -/
theorem C28_total (num : Sym → Nat) (g1 g2 : Graph) (hg1 : WF g1) (hg2 : WF g2) (fuel : Nat)
    (hf : g1.states.length * g2.states.length ≤ fuel) : ∃ g, intersect fuel num g1 g2 = .ok g := by
  obtain ⟨_, g, e, _⟩ := intersect_product (num := num) hg1 hg2 hf
  exact ⟨g, e⟩

/-- Whatever the intersection accepts, both transducers accept; the weight is the sum unless both start states are final.
No transducer needs to be deterministic for this. -/
theorem C28_sound (num : Sym → Nat) (hnum : Function.Injective num) (g1 g2 : Graph) (hg1 : WF g1) (hg2 : WF g2) (fuel : Nat)
    (hf : g1.states.length * g2.states.length ≤ fuel) (g : Graph) (h : intersect fuel num g1 g2 = .ok g)
    (l : List (Sym × Sym)) (w : Int) (hl : Accepts g l w) :
    (∃ w', BothAccept g1 g2 l w') ∧ (g1.final 0 = none ∨ g2.final 0 = none → BothAccept g1 g2 l w) := by
  obtain ⟨order, g', e, hp⟩ := intersect_product (num := num) hg1 hg2 hf
  rw [h] at e
  obtain rfl : g = g' := by injection e
  obtain ⟨t, v, f, h1, h2, rfl⟩ := hl
  obtain ⟨q, w1, w2, hq, p1, p2, rfl⟩ := product_sound hnum hp h1 (0, 0) hp.start
  rw [hp.fin, hq, Option.bind_some] at h2
  unfold pairFinal at h2
  have e1 : ∀ s, (g1.sortArcs num).final s = g1.final s := fun _ => rfl
  have e2 : ∀ s, (g2.sortArcs num).final s = g2.final s := fun _ => rfl
  rw [e1, e2] at h2
  have p1' := path_congr (fun s a h => mem_sortArcs.mp h) p1
  have p2' := path_congr (fun s a h => mem_sortArcs.mp h) p2
  split at h2
  · rename_i f1 f2 hf1 hf2
    refine ⟨⟨_, _, _, ⟨q.1, w1, f1, p1', hf1, rfl⟩, ⟨q.2, w2, f2, p2', hf2, rfl⟩, rfl⟩, ?_⟩
    intro h0
    have hne : q ≠ (0, 0) := by
      rintro rfl
      rcases h0 with h0 | h0
      · rw [h0] at hf1; cases hf1
      · rw [h0] at hf2; cases hf2
    rw [if_neg hne] at h2
    obtain rfl : f1 + f2 = f := by injection h2
    exact ⟨_, _, ⟨q.1, w1, f1, p1', hf1, rfl⟩, ⟨q.2, w2, f2, p2', hf2, rfl⟩, by omega⟩
  · cases h2

theorem arcLe_total (num : Sym → Nat) (a b : Arc) : (arcLe num a b || arcLe num b a) = true := by
  rw [Bool.or_eq_true]
  unfold arcLe
  split_ifs <;> simp <;> omega

theorem arcLe_trans (num : Sym → Nat) (a b c : Arc) (h1 : arcLe num a b = true) (h2 : arcLe num b c = true) :
    arcLe num a c = true := by
  unfold arcLe at *
  split_ifs at * <;> simp only [decide_eq_true_eq] at * <;> omega

theorem sorted_labels {num : Sym → Nat} (hnum : Function.Injective num) {g : Graph} (hd : Deterministic g)
    (ht : TargetsFollowLabels num g) (s : Nat) :
    ((g.sortArcs num).arcs s).Pairwise (fun x y => labelLt num x y = true) := by
  have e : (g.sortArcs num).arcs s = (g.arcs s).mergeSort (arcLe num) := by
    unfold Graph.sortArcs
    rw [arcs_map g (fun l => l.mergeSort (arcLe num)) (by simp) s g.alphabet]
  have hperm : ((g.arcs s).mergeSort (arcLe num)).Perm (g.arcs s) := List.mergeSort_perm _ _
  have h1 := List.pairwise_mergeSort (le := arcLe num) (arcLe_trans num) (arcLe_total num) (g.arcs s)
  have h2 : ((g.arcs s).mergeSort (arcLe num)).Pairwise (fun a b => ¬ SameLabel a b) :=
    (hperm.pairwise_iff (fun {a b} h h' => h ⟨h'.1.symm, h'.2.symm⟩)).mpr (hd s)
  rw [e]
  have h3 := h1.and h2
  refine h3.imp_of_mem ?_
  intro a b ha hb h
  have ha' := hperm.mem_iff.mp ha
  have hb' := hperm.mem_iff.mp hb
  by_contra hlt
  have hba : labelLt num b a = true := by
    by_contra hn
    exact h.2 (same_of_not_lt hnum hlt hn)
  rw [labelLt_iff] at hba hlt
  have := ht s b hb' a ha' (by
    rcases hba with hba | ⟨hba, hba'⟩
    · exact .inl hba
    · exact .inr ⟨hnum hba, hba'⟩)
  have hle := h.1
  unfold arcLe at hle
  split_ifs at hle <;> simp only [decide_eq_true_eq] at hle <;> omega

/-- If both transducers are deterministic, their transitions with greater symbols lead to greater state numbers, and not
both start states are final, the intersection accepts exactly what both accept, with the sum of the weights.  Missing: other
numberings of the states, see `C28_order_violated`, and final start states, see `C28_start_violated`. -/
theorem C28_partial (num : Sym → Nat) (hnum : Function.Injective num) (g1 g2 : Graph) (hg1 : WF g1) (hg2 : WF g2)
    (fuel : Nat) (hf : g1.states.length * g2.states.length ≤ fuel) (hd1 : Deterministic g1) (hd2 : Deterministic g2)
    (ht1 : TargetsFollowLabels num g1) (ht2 : TargetsFollowLabels num g2) (h0 : g1.final 0 = none ∨ g2.final 0 = none) :
    ∃ g, intersect fuel num g1 g2 = .ok g ∧ ∀ l w, Accepts g l w ↔ BothAccept g1 g2 l w := by
  obtain ⟨order, g, e, hp⟩ := intersect_product (num := num) hg1 hg2 hf
  refine ⟨g, e, fun l w => ⟨fun h => (C28_sound num hnum g1 g2 hg1 hg2 fuel hf g e l w h).2 h0, ?_⟩⟩
  rintro ⟨_, _, ⟨q1, v1, f1, a1, a2, rfl⟩, ⟨q2, v2, f2, b1, b2, rfl⟩, rfl⟩
  obtain ⟨t, ht, hpath⟩ := product_complete hp (fun s1 s2 a ha b hb hab =>
    pairs_complete hnum _ _ (sorted_labels hnum hd1 ht1 s1) (sorted_labels hnum hd2 ht2 s2) a ha b hb hab)
    (path_congr (fun s a h => mem_sortArcs.mpr h) a1) 0 q2 v2 0 (path_congr (fun s a h => mem_sortArcs.mpr h) b1) hp.start
  refine ⟨t, v1 + v2, f1 + f2, hpath, ?_, by omega⟩
  rw [hp.fin, ht, Option.bind_some]
  unfold pairFinal
  have e1 : ∀ s, (g1.sortArcs num).final s = g1.final s := fun _ => rfl
  have e2 : ∀ s, (g2.sortArcs num).final s = g2.final s := fun _ => rfl
  rw [e1, e2, a2, b2]
  dsimp only
  rw [if_neg]
  rintro ⟨rfl, rfl⟩
  rcases h0 with h0 | h0
  · rw [h0] at a2; cases a2
  · rw [h0] at b2; cases b2

/-! ## Where the code differs -/

/-- If both start states are final and the smaller of their weights is not the sum, the intersection accepts the empty
sequence with a weight that is not the sum. -/
theorem C28_start_violated (num : Sym → Nat) (g1 g2 : Graph) (hg1 : WF g1) (hg2 : WF g2) (fuel : Nat)
    (hf : g1.states.length * g2.states.length ≤ fuel) (w1 w2 : Int) (h1 : g1.final 0 = some w1) (h2 : g2.final 0 = some w2)
    (hw : min w1 w2 ≠ w1 + w2) :
    ∃ g, intersect fuel num g1 g2 = .ok g ∧ Accepts g [] (min w1 w2) ∧ ¬ BothAccept g1 g2 [] (min w1 w2) := by
  obtain ⟨order, g, e, hp⟩ := intersect_product (num := num) hg1 hg2 hf
  refine ⟨g, e, ⟨0, 0, min w1 w2, .nil 0, ?_, by omega⟩, ?_⟩
  · rw [hp.fin, hp.start, Option.bind_some]
    unfold pairFinal
    have e1 : (g1.sortArcs num).final 0 = some w1 := h1
    have e2 : (g2.sortArcs num).final 0 = some w2 := h2
    dsimp only
    rw [e1, e2]
    rfl
  · rintro ⟨v1, v2, ⟨q1, u1, f1, p1, k1, rfl⟩, ⟨q2, u2, f2, p2, k2, rfl⟩, e⟩
    cases p1
    cases p2
    rw [h1] at k1
    rw [h2] at k2
    obtain rfl : w1 = f1 := by injection k1
    obtain rfl : w2 = f2 := by injection k2
    exact hw (by omega)

/-- A numbering of all symbols. -/
def symCode : Sym → Nat
  | [] => 0
  | c :: cs => symCode cs * 2097152 + c.toNat + 1

theorem symCode_injective : Function.Injective symCode := by
  intro a
  induction a with
  | nil =>
    intro b h
    cases b with
    | nil => rfl
    | cons c cs => simp only [symCode] at h; omega
  | cons c cs ih =>
    intro b h
    cases b with
    | nil => simp only [symCode] at h; omega
    | cons d ds =>
      simp only [symCode] at h
      have hc : c.toNat < 1114112 := by
        have := c.valid; simp only [Char.toNat, UInt32.isValidChar, Nat.isValidChar] at *; omega
      have hd : d.toNat < 1114112 := by
        have := d.valid; simp only [Char.toNat, UInt32.isValidChar, Nat.isValidChar] at *; omega
      have e1 : c.toNat = d.toNat := by omega
      have e2 : symCode cs = symCode ds := by omega
      rw [ih e2, Char.toNat_inj.mp e1]

/-- Accepts `a` (in state 2) and `b` (in state 1). -/
def leftGraph : Graph :=
  { states := [[⟨2, ['a'], ['a'], 3⟩, ⟨1, ['b'], ['b'], 4⟩], [], []], finals := [(1, 0), (2, 0)],
    alphabet := [epsilon, unknown, identity, ['a'], ['b']] }

/-- Accepts `a` (in state 1) and `b` (in state 2). -/
def rightGraph : Graph :=
  { states := [[⟨1, ['a'], ['a'], 10⟩, ⟨2, ['b'], ['b'], 20⟩], [], []], finals := [(1, 0), (2, 0)],
    alphabet := [epsilon, unknown, identity, ['a'], ['b']] }

theorem leftGraph_ok : WF leftGraph ∧ Deterministic leftGraph := by
  refine ⟨⟨by decide, ?_, ?_⟩, ?_⟩
  · intro s a ha
    match s, ha with
    | 0, ha => simp [leftGraph, Graph.arcs] at ha; rcases ha with rfl | rfl <;> decide
    | 1, ha => simp [leftGraph, Graph.arcs] at ha
    | 2, ha => simp [leftGraph, Graph.arcs] at ha
    | n + 3, ha => simp [leftGraph, Graph.arcs] at ha
  · intro s w h
    match s, h with
    | 0, h => simp [leftGraph, Graph.final, mapGet] at h
    | 1, _ => decide
    | 2, _ => decide
    | n + 3, h => simp [leftGraph, Graph.final, mapGet] at h
  · intro s
    match s with
    | 0 => simp [leftGraph, Graph.arcs, SameLabel]
    | 1 => simp [leftGraph, Graph.arcs]
    | 2 => simp [leftGraph, Graph.arcs]
    | n + 3 => simp [leftGraph, Graph.arcs]

theorem rightGraph_ok : WF rightGraph ∧ Deterministic rightGraph ∧ TargetsFollowLabels symCode rightGraph := by
  refine ⟨⟨by decide, ?_, ?_⟩, ?_, ?_⟩
  · intro s a ha
    match s, ha with
    | 0, ha => simp [rightGraph, Graph.arcs] at ha; rcases ha with rfl | rfl <;> decide
    | 1, ha => simp [rightGraph, Graph.arcs] at ha
    | 2, ha => simp [rightGraph, Graph.arcs] at ha
    | n + 3, ha => simp [rightGraph, Graph.arcs] at ha
  · intro s w h
    match s, h with
    | 0, h => simp [rightGraph, Graph.final, mapGet] at h
    | 1, _ => decide
    | 2, _ => decide
    | n + 3, h => simp [rightGraph, Graph.final, mapGet] at h
  · intro s
    match s with
    | 0 => simp [rightGraph, Graph.arcs, SameLabel]
    | 1 => simp [rightGraph, Graph.arcs]
    | 2 => simp [rightGraph, Graph.arcs]
    | n + 3 => simp [rightGraph, Graph.arcs]
  · intro s a ha b hb h
    match s, ha, hb with
    | 0, ha, hb =>
      simp [rightGraph, Graph.arcs] at ha hb
      rcases ha with rfl | rfl <;> rcases hb with rfl | rfl <;> revert h <;> decide
    | 1, ha, _ => simp [rightGraph, Graph.arcs] at ha
    | 2, ha, _ => simp [rightGraph, Graph.arcs] at ha
    | n + 3, ha, _ => simp [rightGraph, Graph.arcs] at ha

/-- What `intersect` makes of the two. -/
def lostResult : Graph :=
  { states := [[⟨1, ['b'], ['b'], 24⟩], []], finals := [(1, 0)],
    alphabet := [['b'], epsilon, unknown, identity] }

theorem leftGraph_sorted : leftGraph.sortArcs symCode =
    { leftGraph with states := [[⟨1, ['b'], ['b'], 4⟩, ⟨2, ['a'], ['a'], 3⟩], [], []] } := by
  simp [Graph.sortArcs, leftGraph, List.mergeSort, List.MergeSort.Internal.splitInTwo, arcLe]

theorem rightGraph_sorted : rightGraph.sortArcs symCode = rightGraph := by
  simp [Graph.sortArcs, rightGraph, List.mergeSort, List.MergeSort.Internal.splitInTwo, arcLe]

theorem lost_eq : intersect 9 symCode leftGraph rightGraph = .ok lostResult := by
  unfold intersect
  rw [leftGraph_sorted, rightGraph_sorted]
  decide +kernel

/-- Two deterministic transducers that both accept `a`, whose intersection does not: the transitions are sorted by target
state first, and the search for matches takes them to be sorted by symbol. -/
theorem C28_order_violated : ∃ num g1 g2 l w g, Function.Injective num ∧ WF g1 ∧ WF g2 ∧ Deterministic g1 ∧ Deterministic g2 ∧
    g1.final 0 = none ∧ g2.final 0 = none ∧ BothAccept g1 g2 l w ∧
    intersect (g1.states.length * g2.states.length) num g1 g2 = .ok g ∧ ∀ w', ¬ Accepts g l w' := by
  refine ⟨symCode, leftGraph, rightGraph, [(['a'], ['a'])], 13, lostResult, symCode_injective, leftGraph_ok.1,
    rightGraph_ok.1, leftGraph_ok.2, rightGraph_ok.2.1, by decide, by decide, ⟨3, 10, ?_, ?_, by omega⟩, lost_eq, ?_⟩
  · exact ⟨2, 3, 0, Path.single (a := ⟨2, ['a'], ['a'], 3⟩) (by simp [leftGraph, Graph.arcs]), by decide, by omega⟩
  · exact ⟨1, 10, 0, Path.single (a := ⟨1, ['a'], ['a'], 10⟩) (by simp [rightGraph, Graph.arcs]), by decide, by omega⟩
  · rintro w' ⟨q, v, f, hp, _, _⟩
    generalize hl : [((['a'] : Sym), (['a'] : Sym))] = l at hp
    cases hp with
    | nil => cases hl
    | cons ha _ =>
      simp [lostResult, Graph.arcs] at ha
      subst ha
      simp at hl

/-- `C28_partial` applies to `rightGraph` with itself, and the result accepts `a` with the sum of the weights. -/
example : ∃ g, intersect 9 symCode rightGraph rightGraph = .ok g ∧ Accepts g [(['a'], ['a'])] 20 := by
  obtain ⟨g, e, h⟩ := C28_partial symCode symCode_injective rightGraph rightGraph rightGraph_ok.1 rightGraph_ok.1 9 (by decide)
    rightGraph_ok.2.1 rightGraph_ok.2.1 rightGraph_ok.2.2 rightGraph_ok.2.2 (.inl (by decide))
  have : Accepts rightGraph [(['a'], ['a'])] 10 :=
    ⟨1, 10, 0, Path.single (a := ⟨1, ['a'], ['a'], 10⟩) (by simp [rightGraph, Graph.arcs]), by decide, by omega⟩
  exact ⟨g, e, (h _ _).mpr ⟨10, 10, this, this, by omega⟩⟩

/-- `C28_sound` applies to `leftGraph` and `rightGraph`, whose intersection accepts `b`. -/
example : BothAccept leftGraph rightGraph [(['b'], ['b'])] 24 :=
  (C28_sound symCode symCode_injective leftGraph rightGraph leftGraph_ok.1 rightGraph_ok.1 9 (by decide) lostResult lost_eq _ 24
    ⟨1, 24, 0, Path.single (a := ⟨1, ['b'], ['b'], 24⟩) (by simp [lostResult, Graph.arcs]), by decide, by omega⟩).2
    (.inl (by decide))

example : ∃ w1 w2 : Int, (Graph.init.setFinal 0 1).final 0 = some w1 ∧ (Graph.init.setFinal 0 2).final 0 = some w2 ∧
    min w1 w2 ≠ w1 + w2 := ⟨1, 2, by decide, by decide, by decide⟩

end Hfst.Basic
