import Verif.Props.SfstStar
import Verif.Lemmas.SfstDet

/-!
# C65 (reversal) and C66: determinisation and intersection in the SFST back-end
-/

namespace Hfst.Sfst

/-- **C65, reversal** (`reverse`): the result accepts exactly the reversed sequences. -/
theorem C65_reverse {F : Fst} (hF : F.graph.Closed) (copyAlphabet : Bool) :
    ∃ R, F.reverse copyAlphabet = some R ∧ R.Honest ∧ ∀ w, R.Takes w ↔ F.Takes w.reverse := by
  obtain ⟨R, map, h, h1, h2, H⟩ := reverse_isReverse hF copyAlphabet
  exact ⟨R, h, ⟨H.closed, (by intro h; rw [h1] at h; cases h), (by intro h; rw [h2] at h; cases h)⟩,
    fun w => H.takes w⟩

/-- **C66, determinisation** (`determinize`): the result is deterministic and accepts the same. -/
theorem C66_determinise {F : Fst} (hF : F.Honest) (copyAlphabet : Bool) :
    ∃ R, F.determinise copyAlphabet = some R ∧ R.Honest ∧ R.deterministic = true ∧ R.graph.Deterministic ∧
      ∀ w, R.Takes w ↔ F.Takes w := by
  by_cases hd : F.deterministic = true
  · obtain ⟨R, h1, h2, h3, _, h4⟩ := copy_exact hF false
    rw [hd] at h3
    refine ⟨R, by unfold Fst.determinise; rw [if_pos hd]; exact h1, h2, h3, h2.deterministic h3, fun w => ?_⟩
    rw [h4]
    have : w.map (copyLabel false) = w := List.map_id w
    rw [this]
  · obtain ⟨k0, b, h, hk, hB⟩ := determinise_built hF.closed (by simpa using hd) copyAlphabet
    have hdet : b.graph.Deterministic := hB.deterministic (fun k hr => by
      obtain ⟨R, hR⟩ := kreach_array hF.closed hr ⟨_, hk⟩
      obtain ⟨h1, _, h3⟩ := mem_transitions hF.closed hR
      exact ⟨fun c hc => (h1 c hc).1, h3⟩)
    refine ⟨_, h, ⟨hB.closed, fun _ => hdet, (by intro h; cases h)⟩, rfl, hdet, fun w => ?_⟩
    refine (hB.takes w).trans ((array_takes hF.closed w hk).trans ?_)
    exact ⟨by rintro ⟨r, rfl, h⟩; exact h, fun h => ⟨0, rfl, h⟩⟩

/-! ## Intersection -/

theorem target_iff {nd : Node} (h : (nd.arcs.map (fun a => a.1)).Nodup) {l : Label} (hl : l ≠ ⟨0, 0⟩) {t : Nat} :
    nd.target l = some t ↔ (l, t) ∈ nd.arcs := by
  have hn : (nd.otherArcs.map (fun a => a.1)).Nodup := by
    unfold Node.otherArcs
    exact h.sublist (List.filter_sublist.map _)
  have hiff : (l, t) ∈ nd.arcs ↔ (l, t) ∈ nd.otherArcs :=
    ⟨fun h => mem_otherArcs.2 ⟨h, hl⟩, fun h => (mem_otherArcs.1 h).1⟩
  rw [hiff]
  unfold Node.target
  generalize nd.otherArcs = L at hn
  induction L with
  | nil => simp
  | cons a L ih =>
    rw [List.map_cons] at hn
    have hn' := List.nodup_cons.1 hn
    rw [List.find?_cons]
    by_cases ha : a.1 = l
    · have : (decide (a.1 = l)) = true := decide_eq_true ha
      rw [this]
      constructor
      · intro h
        have : a.2 = t := by simpa using h
        rw [← ha, ← this]
        exact List.mem_cons_self ..
      · intro h
        rcases List.mem_cons.1 h with h | h
        · rw [← h]; rfl
        · exact absurd (List.mem_map.2 ⟨(l, t), h, ha.symm⟩) hn'.1
    · have : (decide (a.1 = l)) = false := decide_eq_false ha
      rw [this]
      refine (ih hn'.2).trans ⟨List.mem_cons_of_mem _, fun h => ?_⟩
      rcases List.mem_cons.1 h with h | h
      · exact absurd (by rw [← h]) ha
      · exact h

theorem mem_conjoin {g1 g2 : Graph} {p : Nat × Nat} (h1 : ∀ a ∈ (g1.node p.1).arcs, a.1 ≠ ⟨0, 0⟩)
    (h2 : ((g2.node p.2).arcs.map (fun a => a.1)).Nodup) {l : Label} {q : Nat × Nat} :
    (l, q) ∈ conjoinSucc g1 g2 p ↔ g1.Step p.1 l q.1 ∧ g2.Step p.2 l q.2 := by
  unfold conjoinSucc
  rw [List.mem_filterMap]
  constructor
  · rintro ⟨a, ha, he⟩
    cases ht : (g2.node p.2).target a.1 with
    | none => rw [ht] at he; cases he
    | some t =>
      rw [ht] at he
      have he : (a.1, (a.2, t)) = (l, q) := by simpa using he
      cases he
      have ha := mem_iter.1 ha
      exact ⟨ha, (target_iff h2 (h1 a ha)).1 ht⟩
  · rintro ⟨h, h'⟩
    refine ⟨(l, q.1), mem_iter.2 h, ?_⟩
    show Option.map _ ((g2.node p.2).target l) = _
    rw [(target_iff h2 (h1 _ h)).2 h']
    rfl

theorem conjoin_range {g1 g2 : Graph} (h1 : g1.Closed) (h2 : g2.Closed) :
    ∀ p ∈ (List.range g1.size).flatMap (fun n => (List.range g2.size).map (fun m => (n, m))),
      ∀ a ∈ conjoinSucc g1 g2 p, a.2 ∈ (List.range g1.size).flatMap (fun n => (List.range g2.size).map (fun m => (n, m))) := by
  intro p hp a ha
  have hp' : p.1 < g1.size ∧ p.2 < g2.size := by
    obtain ⟨n, hn, hp⟩ := List.mem_flatMap.1 hp
    obtain ⟨m, hm, rfl⟩ := List.mem_map.1 hp
    exact ⟨List.mem_range.1 hn, List.mem_range.1 hm⟩
  unfold conjoinSucc at ha
  obtain ⟨c, hc, he⟩ := List.mem_filterMap.1 ha
  cases ht : (g2.node p.2).target c.1 with
  | none => rw [ht] at he; cases he
  | some t =>
    rw [ht] at he
    have he : (c.1, (c.2, t)) = a := by simpa using he
    subst he
    have hc1 := h1.2 _ hp'.1 c (mem_iter.1 hc)
    have hc2 : t < g2.size := by
      unfold Node.target at ht
      cases hf : (g2.node p.2).otherArcs.find? (fun a => a.1 = c.1) with
      | none => rw [hf] at ht; cases ht
      | some d =>
        rw [hf] at ht
        have : d.2 = t := by simpa using ht
        rw [← this]
        exact h2.2 _ hp'.2 d (mem_otherArcs.1 (List.mem_of_find?_eq_some hf)).1
    exact List.mem_flatMap.2 ⟨c.2, List.mem_range.2 hc1, List.mem_map.2 ⟨t, List.mem_range.2 hc2, rfl⟩⟩

theorem length_pairs (a b : Nat) :
    ((List.range a).flatMap (fun n => (List.range b).map (fun m => (n, m)))).length = a * b := by
  rw [List.length_flatMap]
  have : (List.range a).map (fun n => ((List.range b).map (fun m => (n, m))).length) = (List.range a).map (fun _ => b) := by
    apply List.map_congr_left
    intro n _
    rw [List.length_map, List.length_range]
  rw [this]
  rw [List.map_const', List.length_range, List.sum_replicate_nat]

theorem mem_pairs {a b : Nat} (ha : 0 < a) (hb : 0 < b) :
    (0, 0) ∈ (List.range a).flatMap (fun n => (List.range b).map (fun m => (n, m))) :=
  List.mem_flatMap.2 ⟨0, List.mem_range.2 ha, List.mem_map.2 ⟨0, List.mem_range.2 hb, rfl⟩⟩

/-- Pairs of nodes in reach. -/
theorem conjoin_reach {g1 g2 : Graph} (d1 : g1.Deterministic) (d2 : g2.Deterministic) {p q : Nat × Nat}
    (h : KReach (conjoinSucc g1 g2) p q) : g1.Reach 0 p.1 ∧ g2.Reach 0 p.2 → g1.Reach 0 q.1 ∧ g2.Reach 0 q.2 := by
  induction h with
  | refl => exact id
  | @step p p' q l hs _ ih =>
    rintro ⟨r1, r2⟩
    obtain ⟨s1, s2⟩ := (mem_conjoin (d1 _ r1).1 (d2 _ r2).2).1 hs
    exact ih ⟨r1.trans (.step s1 .refl), r2.trans (.step s2 .refl)⟩

theorem conjoin_takes {g1 g2 : Graph} (d1 : g1.Deterministic) (d2 : g2.Deterministic) (w : List Label) :
    ∀ {p : Nat × Nat}, g1.Reach 0 p.1 → g2.Reach 0 p.2 →
      (KTakes (conjoinSucc g1 g2) (fun p => (g1.node p.1).final && (g2.node p.2).final) p w ↔
        g1.Takes p.1 w ∧ g2.Takes p.2 w) := by
  induction w with
  | nil =>
    intro p r1 r2
    have hm := fun l q => mem_conjoin (d1 _ r1).1 (d2 _ r2).2 (p := p) (l := l) (q := q)
    have hno : ∀ c ∈ conjoinSucc g1 g2 p, c.1 ≠ ⟨0, 0⟩ := fun c hc => (d1 _ r1).1 _ ((hm c.1 c.2).1 hc).1
    rw [kTakes_cases hno]
    have hone : ∀ {g : Graph} {n : Nat}, g.Deterministic → g.Reach 0 n → (g.Takes n [] ↔ (g.node n).final = true) := by
      intro g n d r
      constructor
      · intro h
        cases h with
        | stop hf => exact hf
        | skip hs _ => exact absurd rfl ((d _ r).1 _ hs)
      · exact fun h => .stop h
    rw [hone d1 r1, hone d2 r2, Bool.and_eq_true]
    constructor
    · rintro (⟨_, h⟩ | ⟨_, _, _, h, _⟩)
      · exact h
      · cases h
    · exact fun h => .inl ⟨rfl, h⟩
  | cons l v ih =>
    intro p r1 r2
    have hm := fun l q => mem_conjoin (d1 _ r1).1 (d2 _ r2).2 (p := p) (l := l) (q := q)
    have hno : ∀ c ∈ conjoinSucc g1 g2 p, c.1 ≠ ⟨0, 0⟩ := fun c hc => (d1 _ r1).1 _ ((hm c.1 c.2).1 hc).1
    rw [kTakes_cases hno]
    have hcons : ∀ {g : Graph} {n : Nat}, g.Deterministic → g.Reach 0 n →
        (g.Takes n (l :: v) ↔ ∃ m, g.Step n l m ∧ g.Takes m v) := by
      intro g n d r
      constructor
      · intro h
        cases h with
        | skip hs _ => exact absurd rfl ((d _ r).1 _ hs)
        | read _ hs h => exact ⟨_, hs, h⟩
      · rintro ⟨m, hs, h⟩
        exact .read ((d _ r).1 _ hs) hs h
    rw [hcons d1 r1, hcons d2 r2]
    constructor
    · rintro (⟨h, _⟩ | ⟨l', v', q, he, hq, h⟩)
      · cases h
      · cases he
        obtain ⟨s1, s2⟩ := (hm l q).1 hq
        obtain ⟨t1, t2⟩ := (ih (r1.trans (.step s1 .refl)) (r2.trans (.step s2 .refl))).1 h
        exact ⟨⟨_, s1, t1⟩, ⟨_, s2, t2⟩⟩
    · rintro ⟨⟨m1, s1, t1⟩, ⟨m2, s2, t2⟩⟩
      exact .inr ⟨l, v, (m1, m2), rfl, (hm l (m1, m2)).2 ⟨s1, s2⟩,
        (ih (p := (m1, m2)) (r1.trans (.step s1 .refl)) (r2.trans (.step s2 .refl))).2 ⟨t1, t2⟩⟩

theorem conjoin_nodup {g1 g2 : Graph} {p : Nat × Nat} (h : ((g1.node p.1).arcs.map (fun a => a.1)).Nodup)
    (h1 : ∀ a ∈ (g1.node p.1).arcs, a.1 ≠ ⟨0, 0⟩) : ((conjoinSucc g1 g2 p).map (fun c => c.1)).Nodup := by
  unfold conjoinSucc
  rw [iter_of_no_eps h1]
  refine h.sublist ?_
  generalize (g1.node p.1).arcs = L
  induction L with
  | nil => exact List.Sublist.slnil
  | cons a L ih =>
    rw [List.filterMap_cons]
    cases ht : (g2.node p.2).target a.1 with
    | none => exact ih.cons _
    | some t => exact ih.cons_cons _

/-- **C66, intersection** (`intersect`): the result is deterministic and accepts exactly the sequences
that both accept. -/
theorem C66_intersect {F G : Fst} (hF : F.Honest) (hG : G.Honest) :
    ∃ R, F.intersect G = some R ∧ R.Honest ∧ R.deterministic = true ∧ ∀ w, R.Takes w ↔ F.Takes w ∧ G.Takes w := by
  have hdet : ∀ {F : Fst}, F.Honest → ∃ F1, (if F.deterministic then some F else F.determinise true) = some F1 ∧
      F1.graph.Closed ∧ F1.graph.Deterministic ∧ ∀ w, F1.Takes w ↔ F.Takes w := by
    intro F hF
    by_cases hd : F.deterministic = true
    · exact ⟨F, if_pos hd, hF.closed, hF.deterministic hd, fun w => Iff.rfl⟩
    · obtain ⟨R, h1, h2, _, h4, h5⟩ := C66_determinise hF true
      exact ⟨R, (if_neg hd).trans h1, h2.closed, h4, h5⟩
  obtain ⟨F1, e1, c1, d1, t1⟩ := hdet hF
  obtain ⟨G1, e2, c2, d2, t2⟩ := hdet hG
  obtain ⟨b, hb, hB⟩ := explore_built (succ := conjoinSucc F1.graph G1.graph)
    (final := fun p => (F1.graph.node p.1).final && (G1.graph.node p.2).final) false
    (conjoin_range c1 c2) (mem_pairs c1.1 c2.1) (f := F1.graph.size * G1.graph.size + 1)
    (by rw [length_pairs]; exact Nat.lt_succ_self _) (a := Graph.fresh) (n0 := 0) Nat.zero_lt_one rfl
  refine ⟨⟨b.graph, true, false, copyPairs (copyPairs [] F.pairs) G.pairs⟩, ?_,
    ⟨hB.closed, fun _ => hB.deterministic (fun p hr => ?_), (by intro h; cases h)⟩, rfl, fun w => ?_⟩
  · unfold Fst.intersect
    rw [e1, e2]
    show Option.map _ (explore _ _ _ _ _ _ _) = _
    rw [hb]
    rfl
  · obtain ⟨r1, r2⟩ := conjoin_reach d1 d2 hr ⟨.refl, .refl⟩
    exact ⟨fun c hc => (d1 _ r1).1 _ ((mem_conjoin (d1 _ r1).1 (d2 _ r2).2 (l := c.1) (q := c.2)).1 hc).1,
      conjoin_nodup (d1 _ r1).2 (d1 _ r1).1⟩
  · rw [← t1, ← t2]
    exact (hB.takes w).trans (conjoin_takes d1 d2 w (p := (0, 0)) .refl .refl)

end Hfst.Sfst
