import Verif.Props.SfstDet

/-!
# C67: composition in the SFST back-end
-/

namespace Hfst.Sfst

/-- A symbol before a string; epsilon (0) adds nothing. -/
def put (c : Nat) (x : List Nat) : List Nat := if c = 0 then x else c :: x

/-- The pairs of strings related from a state. -/
inductive Rel {K : Type} (step : K → Label → K → Prop) (fin : K → Prop) : K → List Nat → List Nat → Prop
  | stop {k : K} : fin k → Rel step fin k [] []
  | step {k k' : K} {l : Label} {x y : List Nat} :
      step k l k' → Rel step fin k' x y → Rel step fin k (put l.lower x) (put l.upper y)

theorem lowers_cons (l : Label) (w : List Label) : lowers (l :: w) = put l.lower (lowers w) := by
  unfold lowers put
  rw [List.map_cons, List.filter_cons]
  by_cases h : l.lower = 0
  · simp [h]
  · simp [h]

theorem uppers_cons (l : Label) (w : List Label) : uppers (l :: w) = put l.upper (uppers w) := by
  unfold uppers put
  rw [List.map_cons, List.filter_cons]
  by_cases h : l.upper = 0
  · simp [h]
  · simp [h]

theorem rel_iff {K : Type} {step : K → Label → K → Prop} {fin : K → Prop} {k : K} {x y : List Nat} :
    Rel step fin k x y ↔ ∃ w, Accepts step fin k w ∧ lowers w = x ∧ uppers w = y := by
  constructor
  · intro h
    induction h with
    | stop hf => exact ⟨[], .stop hf, rfl, rfl⟩
    | @step k k' l x y hs _ ih =>
      obtain ⟨w, hw, rfl, rfl⟩ := ih
      by_cases hl : l = ⟨0, 0⟩
      · subst hl
        exact ⟨w, .skip hs hw, rfl, rfl⟩
      · exact ⟨l :: w, .read hl hs hw, lowers_cons l w, uppers_cons l w⟩
  · rintro ⟨w, hw, rfl, rfl⟩
    induction hw with
    | stop hf => exact .stop hf
    | skip hs _ ih => exact .step (l := ⟨0, 0⟩) hs ih
    | read _ hs _ ih => rw [lowers_cons, uppers_cons]; exact .step hs ih

theorem mem_compose {g1 g2 : Graph} {p : Nat × Nat} {l : Label} {q : Nat × Nat} :
    (l, q) ∈ composeSucc g1 g2 p ↔
      (l.upper = 0 ∧ g1.Step p.1 l q.1 ∧ q.2 = p.2) ∨
      (l.lower = 0 ∧ g2.Step p.2 l q.2 ∧ q.1 = p.1) ∨
      (∃ c, c ≠ 0 ∧ g1.Step p.1 ⟨l.lower, c⟩ q.1 ∧ g2.Step p.2 ⟨c, l.upper⟩ q.2) := by
  have hL : (l, q) ∈ (g1.node p.1).iter.flatMap (fun a1 =>
      if a1.1.upper = 0 then [(a1.1, (a1.2, p.2))]
      else ((g2.node p.2).iter.filter (fun a2 => a2.1.lower = a1.1.upper)).map
        (fun a2 => (⟨a1.1.lower, a2.1.upper⟩, (a1.2, a2.2)))) ↔
      (l.upper = 0 ∧ g1.Step p.1 l q.1 ∧ q.2 = p.2) ∨
      (∃ c, c ≠ 0 ∧ g1.Step p.1 ⟨l.lower, c⟩ q.1 ∧ g2.Step p.2 ⟨c, l.upper⟩ q.2) := by
    rw [List.mem_flatMap]
    constructor
    · rintro ⟨a1, h1, h⟩
      have h1 := mem_iter.1 h1
      split at h
      · rename_i hu
        rw [List.mem_singleton] at h
        cases h
        exact .inl ⟨hu, h1, rfl⟩
      · rename_i hu
        obtain ⟨a2, h2, he⟩ := List.mem_map.1 h
        obtain ⟨h2, hc⟩ := List.mem_filter.1 h2
        have hc : a2.1.lower = a1.1.upper := by simpa using hc
        cases he
        exact .inr ⟨a1.1.upper, hu, h1, by rw [← hc]; exact mem_iter.1 h2⟩
    · rintro (⟨hu, hs, he⟩ | ⟨c, hc, s1, s2⟩)
      · refine ⟨(l, q.1), mem_iter.2 hs, ?_⟩
        rw [if_pos hu, List.mem_singleton, ← he]
      · refine ⟨(⟨l.lower, c⟩, q.1), mem_iter.2 s1, ?_⟩
        rw [if_neg hc]
        exact List.mem_map.2 ⟨(⟨c, l.upper⟩, q.2), List.mem_filter.2 ⟨mem_iter.2 s2, by simp⟩, rfl⟩
  have hR : (l, q) ∈ (g2.node p.2).iter.flatMap (fun a2 =>
      if a2.1.lower = 0 then [(a2.1, (p.1, a2.2))]
      else ((g1.node p.1).iter.filter (fun a1 => a1.1.upper = a2.1.lower)).map
        (fun a1 => (⟨a1.1.lower, a2.1.upper⟩, (a1.2, a2.2)))) ↔
      (l.lower = 0 ∧ g2.Step p.2 l q.2 ∧ q.1 = p.1) ∨
      (∃ c, c ≠ 0 ∧ g1.Step p.1 ⟨l.lower, c⟩ q.1 ∧ g2.Step p.2 ⟨c, l.upper⟩ q.2) := by
    rw [List.mem_flatMap]
    constructor
    · rintro ⟨a2, h2, h⟩
      have h2 := mem_iter.1 h2
      split at h
      · rename_i hu
        rw [List.mem_singleton] at h
        cases h
        exact .inl ⟨hu, h2, rfl⟩
      · rename_i hu
        obtain ⟨a1, h1, he⟩ := List.mem_map.1 h
        obtain ⟨h1, hc⟩ := List.mem_filter.1 h1
        have hc : a1.1.upper = a2.1.lower := by simpa using hc
        cases he
        exact .inr ⟨a2.1.lower, hu, by rw [← hc]; exact mem_iter.1 h1, h2⟩
    · rintro (⟨hu, hs, he⟩ | ⟨c, hc, s1, s2⟩)
      · refine ⟨(l, q.2), mem_iter.2 hs, ?_⟩
        rw [if_pos hu, List.mem_singleton, ← he]
      · refine ⟨(⟨c, l.upper⟩, q.2), mem_iter.2 s2, ?_⟩
        rw [if_neg hc]
        exact List.mem_map.2 ⟨(⟨l.lower, c⟩, q.1), List.mem_filter.2 ⟨mem_iter.2 s1, by simp⟩, rfl⟩
  have h2 : (l, q) ∈ ((g2.node p.2).iter.filter (fun a2 => a2.1.lower = 0)).map (fun a2 => (a2.1, (p.1, a2.2))) ↔
      (l.lower = 0 ∧ g2.Step p.2 l q.2 ∧ q.1 = p.1) := by
    rw [List.mem_map]
    constructor
    · rintro ⟨a2, h, he⟩
      obtain ⟨h, hc⟩ := List.mem_filter.1 h
      cases he
      exact ⟨by simpa using hc, mem_iter.1 h, rfl⟩
    · rintro ⟨hl, hs, he⟩
      exact ⟨(l, q.2), List.mem_filter.2 ⟨mem_iter.2 hs, by simpa using hl⟩, by rw [← he]⟩
  have h1 : (l, q) ∈ ((g1.node p.1).iter.filter (fun a1 => a1.1.upper = 0)).map (fun a1 => (a1.1, (a1.2, p.2))) ↔
      (l.upper = 0 ∧ g1.Step p.1 l q.1 ∧ q.2 = p.2) := by
    rw [List.mem_map]
    constructor
    · rintro ⟨a1, h, he⟩
      obtain ⟨h, hc⟩ := List.mem_filter.1 h
      cases he
      exact ⟨by simpa using hc, mem_iter.1 h, rfl⟩
    · rintro ⟨hl, hs, he⟩
      exact ⟨(l, q.1), List.mem_filter.2 ⟨mem_iter.2 hs, by simpa using hl⟩, by rw [← he]⟩
  unfold composeSucc
  dsimp only
  split
  · rw [List.mem_append, hL, h2]
    constructor
    · rintro ((h | h) | h)
      · exact .inl h
      · exact .inr (.inr h)
      · exact .inr (.inl h)
    · rintro (h | h | h)
      · exact .inl (.inl h)
      · exact .inr h
      · exact .inl (.inr h)
  · rw [List.mem_append, hR, h1]
    constructor
    · rintro ((h | h) | h)
      · exact .inr (.inl h)
      · exact .inr (.inr h)
      · exact .inl h
    · rintro (h | h | h)
      · exact .inr h
      · exact .inl (.inl h)
      · exact .inl (.inr h)

/-- Fixing the steps and final states of a graph. -/
def Graph.Rel (g : Graph) (n : Nat) (x y : List Nat) : Prop :=
  Hfst.Sfst.Rel g.Step (fun m => (g.node m).final = true) n x y

theorem put_nil {c : Nat} {y : List Nat} (h : [] = put c y) : c = 0 ∧ y = [] := by
  unfold put at h
  split at h
  · exact ⟨‹_›, h.symm⟩
  · cases h

theorem compose_rel {g1 g2 : Graph} {p : Nat × Nat} {x z : List Nat} :
    Rel (fun p l q => (l, q) ∈ composeSucc g1 g2 p)
      (fun p => ((g1.node p.1).final && (g2.node p.2).final) = true) p x z ↔
      ∃ y, g1.Rel p.1 x y ∧ g2.Rel p.2 y z := by
  constructor
  · intro h
    induction h with
    | stop hf =>
      rw [Bool.and_eq_true] at hf
      exact ⟨[], .stop hf.1, .stop hf.2⟩
    | @step p q l x z hs _ ih =>
      obtain ⟨y, hx, hz⟩ := ih
      rcases mem_compose.1 hs with ⟨hu, hs, he⟩ | ⟨hl, hs, he⟩ | ⟨c, hc, s1, s2⟩
      · refine ⟨y, ?_, ?_⟩
        · have := Rel.step hs hx
          rw [hu] at this
          exact this
        · rw [hu, ← he]
          exact hz
      · refine ⟨y, ?_, ?_⟩
        · rw [hl, ← he]
          exact hx
        · have := Rel.step hs hz
          rw [hl] at this
          exact this
      · exact ⟨put c y, Rel.step s1 hx, Rel.step s2 hz⟩
  · rintro ⟨y, hx, hz⟩
    obtain ⟨n, m⟩ := p
    simp only at hx hz
    unfold Graph.Rel at hx hz
    induction hx generalizing m z with
    | @stop n hf =>
      generalize hy : ([] : List Nat) = y at hz
      induction hz with
      | stop hf' => exact .stop (by rw [Bool.and_eq_true]; exact ⟨hf, hf'⟩)
      | @step m m' l y z hs _ ih =>
        obtain ⟨hl, hy'⟩ := put_nil hy
        have := Rel.step (step := fun p l q => (l, q) ∈ composeSucc g1 g2 p) (k := (n, m)) (k' := (n, m')) (l := l)
          (mem_compose.2 (.inr (.inl ⟨hl, hs, rfl⟩))) (ih hy'.symm)
        rw [hl] at this ⊢
        exact this
    | @step n n' l1 x y hs hrest ih =>
      by_cases hu : l1.upper = 0
      · rw [hu] at hz
        have := Rel.step (step := fun p l q => (l, q) ∈ composeSucc g1 g2 p) (k := (n, m)) (k' := (n', m)) (l := l1)
          (mem_compose.2 (.inl ⟨hu, hs, rfl⟩)) (ih m hz)
        rw [hu] at this
        exact this
      · have hput : put l1.upper y = l1.upper :: y := if_neg hu
        rw [hput] at hz
        generalize hy : l1.upper :: y = y' at hz
        induction hz with
        | stop _ => cases hy
        | @step m m' l2 y2 z hs2 hrest2 ih2 =>
          by_cases hl : l2.lower = 0
          · have hy' : l1.upper :: y = y2 := by rw [hy, hl]; rfl
            have := Rel.step (step := fun p l q => (l, q) ∈ composeSucc g1 g2 p) (k := (n, m)) (k' := (n, m')) (l := l2)
              (mem_compose.2 (.inr (.inl ⟨hl, hs2, rfl⟩))) (ih2 hy')
            rw [hl] at this
            exact this
          · have hp2 : put l2.lower y2 = l2.lower :: y2 := if_neg hl
            rw [hp2] at hy
            injection hy with h1 h2
            subst h2
            have hstep : ((⟨l1.lower, l2.upper⟩ : Label), (n', m')) ∈ composeSucc g1 g2 (n, m) :=
              mem_compose.2 (.inr (.inr ⟨l1.upper, hu, hs, by rw [h1]; exact hs2⟩))
            exact Rel.step (step := fun p l q => (l, q) ∈ composeSucc g1 g2 p) hstep (ih m' hrest2)

theorem compose_range {g1 g2 : Graph} (h1 : g1.Closed) (h2 : g2.Closed) :
    ∀ p ∈ (List.range g1.size).flatMap (fun n => (List.range g2.size).map (fun m => (n, m))),
      ∀ a ∈ composeSucc g1 g2 p, a.2 ∈ (List.range g1.size).flatMap (fun n => (List.range g2.size).map (fun m => (n, m))) := by
  intro p hp a ha
  have hp' : p.1 < g1.size ∧ p.2 < g2.size := by
    obtain ⟨n, hn, hp⟩ := List.mem_flatMap.1 hp
    obtain ⟨m, hm, rfl⟩ := List.mem_map.1 hp
    exact ⟨List.mem_range.1 hn, List.mem_range.1 hm⟩
  have ha' : a.2.1 < g1.size ∧ a.2.2 < g2.size := by
    rcases (mem_compose (l := a.1) (q := a.2)).1 ha with ⟨_, hs, he⟩ | ⟨_, hs, he⟩ | ⟨c, _, s1, s2⟩
    · exact ⟨h1.2 _ hp'.1 _ hs, he ▸ hp'.2⟩
    · exact ⟨he ▸ hp'.1, h2.2 _ hp'.2 _ hs⟩
    · exact ⟨h1.2 _ hp'.1 _ s1, h2.2 _ hp'.2 _ s2⟩
  exact List.mem_flatMap.2 ⟨a.2.1, List.mem_range.2 ha'.1, List.mem_map.2 ⟨a.2.2, List.mem_range.2 ha'.2, rfl⟩⟩

theorem relates_iff {F : Fst} {x y : List Nat} : F.Relates x y ↔ F.graph.Rel 0 x y := by
  unfold Fst.Relates Graph.Rel
  rw [rel_iff]
  exact Iff.rfl

/-- **C67, composition** (`compose`): the result relates exactly the strings that are related by way of a
string in between. -/
theorem C67_compose {F G : Fst} (hF : F.graph.Closed) (hG : G.graph.Closed) :
    ∃ R, F.compose G = some R ∧ R.Honest ∧ ∀ x z, R.Relates x z ↔ ∃ y, F.Relates x y ∧ G.Relates y z := by
  obtain ⟨b, hb, hB⟩ := explore_built (succ := composeSucc F.graph G.graph)
    (final := fun p => (F.graph.node p.1).final && (G.graph.node p.2).final) false
    (compose_range hF hG) (mem_pairs hF.1 hG.1) (f := F.graph.size * G.graph.size + 1)
    (by rw [length_pairs]; exact Nat.lt_succ_self _) (a := Graph.fresh) (n0 := 0) Nat.zero_lt_one rfl
  refine ⟨⟨b.graph, false, false, []⟩, ?_, ⟨hB.closed, (by intro h; cases h), (by intro h; cases h)⟩,
    fun x z => ?_⟩
  · unfold Fst.compose
    rw [hb]
    rfl
  · have h1 : Fst.Relates ⟨b.graph, false, false, []⟩ x z ↔
        ∃ w, KTakes (composeSucc F.graph G.graph)
          (fun p => (F.graph.node p.1).final && (G.graph.node p.2).final) (0, 0) w ∧ lowers w = x ∧ uppers w = z := by
      constructor
      · rintro ⟨w, hw, h⟩; exact ⟨w, (hB.takes w).1 hw, h⟩
      · rintro ⟨w, hw, h⟩; exact ⟨w, (hB.takes w).2 hw, h⟩
    rw [h1]
    have h2 := (rel_iff (step := fun p l q => (l, q) ∈ composeSucc F.graph G.graph p)
      (fin := fun p => ((F.graph.node p.1).final && (G.graph.node p.2).final) = true) (k := (0, 0)) (x := x) (y := z)).symm
    refine h2.trans (compose_rel.trans ?_)
    constructor
    · rintro ⟨y, h, h'⟩; exact ⟨y, relates_iff.2 h, relates_iff.2 h'⟩
    · rintro ⟨y, h, h'⟩; exact ⟨y, relates_iff.1 h, relates_iff.1 h'⟩

/-! ## C65 in terms of strings -/

theorem lowers_append (u v : List Label) : lowers (u ++ v) = lowers u ++ lowers v := by
  simp [lowers]

theorem uppers_append (u v : List Label) : uppers (u ++ v) = uppers u ++ uppers v := by
  simp [uppers]

/-- **C65, in terms of the strings related**: union relates what one of the two relates, concatenation
relates concatenated strings, reversal relates reversed strings. -/
theorem C65_relations {F G : Fst} (hF : F.graph.Closed) (hG : G.graph.Closed) :
    (∃ R, F.union G = some R ∧ ∀ x y, R.Relates x y ↔ F.Relates x y ∨ G.Relates x y) ∧
    (∃ R, F.concat G = some R ∧ ∀ x y, R.Relates x y ↔
      ∃ x1 x2 y1 y2, x = x1 ++ x2 ∧ y = y1 ++ y2 ∧ F.Relates x1 y1 ∧ G.Relates x2 y2) ∧
    (∃ R, F.reverse true = some R ∧ ∀ x y, R.Relates x y ↔ F.Relates x.reverse y.reverse) := by
  refine ⟨?_, ?_, ?_⟩
  · obtain ⟨R, h, _, ht⟩ := C65_union hF hG
    refine ⟨R, h, fun x y => ⟨?_, ?_⟩⟩
    · rintro ⟨w, hw, h⟩
      exact ((ht w).1 hw).imp (fun hw => ⟨w, hw, h⟩) (fun hw => ⟨w, hw, h⟩)
    · rintro (⟨w, hw, h⟩ | ⟨w, hw, h⟩)
      · exact ⟨w, (ht w).2 (.inl hw), h⟩
      · exact ⟨w, (ht w).2 (.inr hw), h⟩
  · obtain ⟨R, h, _, ht⟩ := C65_concat hF hG
    refine ⟨R, h, fun x y => ⟨?_, ?_⟩⟩
    · rintro ⟨w, hw, rfl, rfl⟩
      obtain ⟨u, v, rfl, hu, hv⟩ := (ht w).1 hw
      exact ⟨_, _, _, _, lowers_append u v, uppers_append u v, ⟨u, hu, rfl, rfl⟩, ⟨v, hv, rfl, rfl⟩⟩
    · rintro ⟨_, _, _, _, rfl, rfl, ⟨u, hu, rfl, rfl⟩, ⟨v, hv, rfl, rfl⟩⟩
      exact ⟨u ++ v, (ht _).2 ⟨u, v, rfl, hu, hv⟩, lowers_append u v, uppers_append u v⟩
  · obtain ⟨R, h, _, ht⟩ := C65_reverse hF true
    have hl : ∀ w, lowers w.reverse = (lowers w).reverse := fun w => by simp [lowers, List.filter_reverse]
    have hu : ∀ w, uppers w.reverse = (uppers w).reverse := fun w => by simp [uppers, List.filter_reverse]
    refine ⟨R, h, fun x y => ⟨?_, ?_⟩⟩
    · rintro ⟨w, hw, rfl, rfl⟩
      exact ⟨w.reverse, (ht w).1 hw, hl w, hu w⟩
    · rintro ⟨w, hw, h1, h2⟩
      refine ⟨w.reverse, (ht _).2 (by rwa [List.reverse_reverse]), ?_, ?_⟩
      · rw [hl, h1, List.reverse_reverse]
      · rw [hu, h2, List.reverse_reverse]

end Hfst.Sfst
