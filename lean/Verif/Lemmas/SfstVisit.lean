import Verif.Lemmas.SfstCopy

/-!
# The traversal that changes all nodes in place

`visit` changes exactly the nodes reached from the start, each of them once.
-/

namespace Hfst.Sfst

theorem node_modify (g : Graph) (n : Nat) (f : Node → Node) (j : Nat) :
    (g.modify n f).node j = if j = n then f (g.node j) else g.node j := rfl

/-- Reached along given arcs. -/
inductive ListReach (next : Nat → List (Label × Nat)) : Nat → Nat → Prop
  | refl {n : Nat} : ListReach next n n
  | step {n p : Nat} {a : Label × Nat} : a ∈ next n → ListReach next a.2 p → ListReach next n p

/-- What the traversal from the roots `R` does to marks and nodes. -/
structure Visited (g0 : Graph) (pre post : Nat → Node → Node) (R : Nat → Prop)
    (s s' : List Nat × Graph) : Prop where
  size : s'.2.size = s.2.size
  keeps : ∀ j ∈ s.1, j ∈ s'.1
  old : ∀ j, j ∈ s.1 ∨ j ∉ s'.1 → s'.2.node j = s.2.node j
  new : ∀ j ∈ s'.1, j ∉ s.1 → s'.2.node j = post j (pre j (g0.node j)) ∧
    ∀ a ∈ (pre j (g0.node j)).arcs, a.2 ∈ s'.1
  reached : ∀ j ∈ s'.1, j ∉ s.1 → ∃ r, R r ∧ ListReach (fun j => (pre j (g0.node j)).arcs) r j
  roots : ∀ r, R r → r ∈ s'.1

/-- How many nodes are not yet marked. -/
def unmarked (size : Nat) (V : List Nat) : Nat := ((List.range size).filter (fun j => !decide (j ∈ V))).length

theorem unmarked_le {size : Nat} {V V' : List Nat} (h : ∀ j ∈ V, j ∈ V') :
    unmarked size V' ≤ unmarked size V := by
  apply filter_length_le
  intro j _ hj
  simp only [Bool.not_eq_true', decide_eq_false_iff_not] at hj ⊢
  exact fun h' => hj (h j h')

theorem unmarked_cons {size n : Nat} {V : List Nat} (hn : n < size) (h : n ∉ V) :
    unmarked size (n :: V) < unmarked size V := by
  apply filter_length_lt (List.mem_range.2 hn)
  · intro j _ hj
    simp only [Bool.not_eq_true', decide_eq_false_iff_not] at hj ⊢
    exact fun h' => hj (List.mem_cons_of_mem _ h')
  · simp
  · simp [h]

theorem foldlM_visited {g0 : Graph} {pre post : Nat → Node → Node} {f : Nat}
    (ih : ∀ n (s : List Nat × Graph), n < g0.size → s.2.size = g0.size →
      (∀ j, j ∉ s.1 → s.2.node j = g0.node j) → unmarked g0.size s.1 < f →
      ∃ s', visit pre post f n s = some s' ∧ Visited g0 pre post (fun r => r = n) s s') (L : List (Label × Nat)) :
    ∀ (s : List Nat × Graph), (∀ a ∈ L, a.2 < g0.size) → s.2.size = g0.size →
      (∀ j, j ∉ s.1 → s.2.node j = g0.node j) → unmarked g0.size s.1 < f →
      ∃ s', L.foldlM (fun s' arc => visit pre post f arc.2 s') s = some s' ∧
        Visited g0 pre post (fun r => ∃ a ∈ L, a.2 = r) s s' := by
  induction L with
  | nil =>
    intro s _ _ _ _
    exact ⟨s, rfl, rfl, fun _ h => h, fun _ _ => rfl, fun j h h' => absurd h h', fun j h h' => absurd h h',
      fun r ⟨a, h, _⟩ => by cases h⟩
  | cons a L ihL =>
    intro s hL hs hn hw
    obtain ⟨s1, h1, v1⟩ := ih a.2 s (hL a (List.mem_cons_self ..)) hs hn hw
    obtain ⟨s2, h2, v2⟩ := ihL s1 (fun c hc => hL c (List.mem_cons_of_mem _ hc)) (v1.size.trans hs)
      (fun j hj => by
        rw [v1.old j (Or.inr hj)]
        exact hn j (fun h => hj (v1.keeps j h)))
      (Nat.lt_of_le_of_lt (unmarked_le v1.keeps) hw)
    refine ⟨s2, ?_, v2.size.trans v1.size, fun j h => v2.keeps j (v1.keeps j h), ?_, ?_, ?_, ?_⟩
    · rw [List.foldlM_cons, h1]
      exact h2
    · intro j hj
      rcases hj with hj | hj
      · rw [v2.old j (Or.inl (v1.keeps j hj)), v1.old j (Or.inl hj)]
      · rw [v2.old j (Or.inr hj), v1.old j (Or.inr (fun h => hj (v2.keeps j h)))]
    · intro j hj hj'
      by_cases h : j ∈ s1.1
      · obtain ⟨h3, h4⟩ := v1.new j h hj'
        rw [v2.old j (Or.inl h)]
        exact ⟨h3, fun c hc => v2.keeps _ (h4 c hc)⟩
      · exact v2.new j hj h
    · intro j hj hj'
      by_cases h : j ∈ s1.1
      · obtain ⟨r, rfl, hr⟩ := v1.reached j h hj'
        exact ⟨_, ⟨a, List.mem_cons_self .., rfl⟩, hr⟩
      · obtain ⟨r, ⟨c, hc, rfl⟩, hr⟩ := v2.reached j hj h
        exact ⟨_, ⟨c, List.mem_cons_of_mem _ hc, rfl⟩, hr⟩
    · rintro r ⟨c, hc, rfl⟩
      rcases List.mem_cons.1 hc with rfl | hc
      · exact v2.keeps _ (v1.roots _ rfl)
      · exact v2.roots _ ⟨c, hc, rfl⟩

/-- **The traversal ends and changes the reached nodes.** -/
theorem visit_visited {g0 : Graph} {pre post : Nat → Node → Node}
    (hc : ∀ j, j < g0.size → ∀ a ∈ (pre j (g0.node j)).arcs, a.2 < g0.size) (f : Nat) :
    ∀ n (s : List Nat × Graph), n < g0.size → s.2.size = g0.size →
      (∀ j, j ∉ s.1 → s.2.node j = g0.node j) → unmarked g0.size s.1 < f →
      ∃ s', visit pre post f n s = some s' ∧ Visited g0 pre post (fun r => r = n) s s' := by
  induction f with
  | zero => exact fun _ _ _ _ _ h => absurd h (Nat.not_lt_zero _)
  | succ f ih =>
    intro n s hn hs hg hw
    by_cases hm : n ∈ s.1
    · refine ⟨s, by simp [visit, hm], rfl, fun _ h => h, fun _ _ => rfl, fun j h h' => absurd h h',
        fun j h h' => absurd h h', fun r h => h ▸ hm⟩
    · let s1 : List Nat × Graph := (n :: s.1, s.2.modify n (pre n))
      have hnode : (s1.2.node n) = pre n (g0.node n) := by
        show (s.2.modify n (pre n)).node n = _
        rw [node_modify, if_pos rfl, hg n hm]
      have hoth : ∀ j, j ≠ n → s1.2.node j = s.2.node j := by
        intro j hj
        show (s.2.modify n (pre n)).node j = _
        rw [node_modify, if_neg hj]
      obtain ⟨s2, h2, v2⟩ := foldlM_visited ih (s1.2.node n).iter s1
        (fun a ha => hc n hn a (by rw [← hnode]; exact mem_iter.1 ha)) hs
        (fun j hj => by
          have h1 : j ≠ n := fun h => hj (h ▸ List.mem_cons_self ..)
          rw [hoth j h1]
          exact hg j (fun h => hj (List.mem_cons_of_mem _ h)))
        (Nat.lt_of_lt_of_le (unmarked_cons hn hm) (Nat.le_of_lt_succ hw))
      refine ⟨(s2.1, s2.2.modify n (post n)), ?_, v2.size, ?_, ?_, ?_, ?_, ?_⟩
      · simp only [visit, if_neg hm]
        show Option.map _ (List.foldlM _ s1 _) = _
        rw [h2]
        rfl
      · exact fun j h => v2.keeps j (List.mem_cons_of_mem _ h)
      · intro j hj
        have h1 : j ≠ n := by
          rintro rfl
          rcases hj with hj | hj
          · exact hm hj
          · exact hj (v2.keeps j (List.mem_cons_self ..))
        show (s2.2.modify n (post n)).node j = _
        rw [node_modify, if_neg h1, v2.old j, hoth j h1]
        rcases hj with hj | hj
        · exact Or.inl (List.mem_cons_of_mem _ hj)
        · exact Or.inr hj
      · intro j hj hj'
        show (s2.2.modify n (post n)).node j = _ ∧ _
        rw [node_modify]
        by_cases h1 : j = n
        · subst h1
          rw [if_pos rfl, v2.old j (Or.inl (List.mem_cons_self ..)), hnode]
          refine ⟨rfl, fun a ha => v2.roots _ ⟨a, ?_, rfl⟩⟩
          rw [hnode]
          exact mem_iter.2 ha
        · rw [if_neg h1]
          exact v2.new j hj (fun h => by
            rcases List.mem_cons.1 h with h | h
            · exact h1 h
            · exact hj' h)
      · intro j hj hj'
        refine ⟨n, rfl, ?_⟩
        by_cases h1 : j = n
        · rw [h1]; exact .refl
        · obtain ⟨r, ⟨a, ha, rfl⟩, hr⟩ := v2.reached j hj (fun h => by
            rcases List.mem_cons.1 h with h | h
            · exact h1 h
            · exact hj' h)
          refine .step (a := a) ?_ hr
          rw [hnode] at ha
          exact mem_iter.1 ha
      · rintro r rfl
        exact v2.keeps _ (List.mem_cons_self ..)

/-- From the start with no marks: the reached nodes are changed, the others are not. -/
theorem visit_all {g : Graph} {pre post : Nat → Node → Node}
    (hc : ∀ j, j < g.size → ∀ a ∈ (pre j (g.node j)).arcs, a.2 < g.size) {n : Nat} (hn : n < g.size) :
    ∃ (V : List Nat) (g' : Graph), visit pre post (g.size + 1) n ([], g) = some (V, g') ∧
      g'.size = g.size ∧
      (∀ j, j ∈ V ↔ ListReach (fun j => (pre j (g.node j)).arcs) n j) ∧
      (∀ j, j ∈ V → g'.node j = post j (pre j (g.node j))) ∧
      (∀ j, j ∉ V → g'.node j = g.node j) := by
  obtain ⟨⟨V, g'⟩, h, v⟩ := visit_visited hc (g.size + 1) n ([], g) hn rfl (fun _ _ => rfl) (by
    refine Nat.lt_succ_of_le (Nat.le_trans (List.length_filter_le ..) ?_)
    simp)
  refine ⟨V, g', h, v.size, ?_, fun j hj => (v.new j hj (fun h => by cases h)).1,
    fun j hj => v.old j (Or.inr hj)⟩
  intro j
  constructor
  · intro hj
    obtain ⟨r, rfl, hr⟩ := v.reached j hj (fun h => by cases h)
    exact hr
  · intro hr
    have hroot : n ∈ V := v.roots n rfl
    have hcl : ∀ j ∈ V, ∀ a ∈ (pre j (g.node j)).arcs, a.2 ∈ V := fun j hj =>
      (v.new j hj (fun h => by cases h)).2
    clear h hn v
    induction hr with
    | refl => exact hroot
    | step ha _ ih => exact ih (hcl _ hroot _ ha)

end Hfst.Sfst
