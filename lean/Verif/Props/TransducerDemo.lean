import Verif.Props.TransducerBackend
import Verif.Props.TransducerPriority

/-!
# C72-C74 on concrete transducers

`anyGraph` accepts any symbol but `a`, paired with itself or with another such symbol; `bcGraph` maps `b` to `c`.  The theorems
are used with the reference back-end, which meets the assumptions.
-/
namespace Hfst.Trans
open Hfst.Basic Hfst.Lexc

theorem anyGraph_arcs {s : Nat} {a : Arc} (h : a ∈ anyGraph.arcs s) :
    s = 0 ∧ (a = ⟨1, identity, identity, 2⟩ ∨ a = ⟨1, unknown, unknown, 5⟩) := by
  match s, h with
  | 0, h => exact ⟨rfl, by simpa [anyGraph, Graph.arcs] using h⟩
  | 1, h => simp [anyGraph, Graph.arcs] at h
  | n + 2, h => simp [anyGraph, Graph.arcs] at h

theorem bcGraph_arcs {s : Nat} {a : Arc} (h : a ∈ bcGraph.arcs s) : s = 0 ∧ a = ⟨1, ['b'], ['c'], 0⟩ := by
  match s, h with
  | 0, h => exact ⟨rfl, by simpa [bcGraph, Graph.arcs] using h⟩
  | 1, h => simp [bcGraph, Graph.arcs] at h
  | n + 2, h => simp [bcGraph, Graph.arcs] at h

theorem anyGraph_usual : Usual anyGraph := by
  refine ⟨⟨⟨by decide, ?_, ?_⟩, ⟨?_, by decide, by decide, by decide⟩, by unfold FinalMap; decide⟩, anyGraph_ok.2, by decide⟩
  · intro s a ha
    obtain ⟨_, rfl | rfl⟩ := anyGraph_arcs ha <;> decide
  · intro s w h
    have := mapGet_mem h
    simp only [anyGraph, List.mem_singleton, Prod.mk.injEq] at this
    rw [this.1]; decide
  · intro s a ha
    obtain ⟨_, rfl | rfl⟩ := anyGraph_arcs ha <;> decide

theorem bcGraph_usual : Usual bcGraph := by
  refine ⟨⟨⟨by decide, ?_, ?_⟩, ⟨?_, by decide, by decide, by decide⟩, by unfold FinalMap; decide⟩, bcGraph_ok.2, by decide⟩
  · intro s a ha
    obtain ⟨_, rfl⟩ := bcGraph_arcs ha; decide
  · intro s w h
    have := mapGet_mem h
    simp only [bcGraph, List.mem_singleton, Prod.mk.injEq] at this
    rw [this.1]; decide
  · intro s a ha
    obtain ⟨_, rfl⟩ := bcGraph_arcs ha; decide

theorem plain_of_all {g : Graph} (h : ∀ x ∈ g.alphabet, isSpecial x = true → x = epsilon ∨ x = unknown ∨ x = identity) : Plain g :=
  fun x hx hm => h x hm hx

theorem anyGraph_plain : Plain anyGraph := plain_of_all (by decide)
theorem bcGraph_plain : Plain bcGraph := plain_of_all (by decide)

theorem any_bc_specials : SameSpecials anyGraph bcGraph := anyGraph_plain.same bcGraph_plain anyGraph_usual.good bcGraph_usual.good

theorem bc_means : Means bcGraph [(['b'], ['c'])] 0 :=
  ⟨_, 0, ⟨1, 0, 0, .cons (a := ⟨1, ['b'], ['c'], 0⟩) (by simp [bcGraph, Graph.arcs])
    (.itself (by decide) (by decide) (by decide) (by decide)) (.nil 1), by decide, by omega⟩, by decide, Int.le_refl _⟩

theorem any_means : Means anyGraph [(['b'], ['b'])] 3 := ⟨_, 3, anyGraph_b, by decide, Int.le_refl _⟩

theorem bc_keeps : KeepsOutput bcGraph := by
  intro l w hm x y hxy ho
  obtain ⟨k, hk, hf⟩ := means_iff.mp hm
  exfalso
  have hlab : ∀ p ∈ k, p = (['b'], ['c']) := fun p hp => by
    obtain ⟨s, a, ha, rfl⟩ := hk.labels p hp
    obtain ⟨_, rfl⟩ := bcGraph_arcs ha
    rfl
  clear hk hm
  induction hf with
  | nil => cases hxy
  | @cons p q k l hs hf ih =>
    rcases List.mem_cons.mp hxy with e | hm
    · rw [hlab p (by simp), ← e] at hs
      rcases st_iff.mp hs with ⟨h1, _⟩ | ⟨_, _, _, h4, _⟩
      · exact absurd h1 (by decide)
      · rcases h4 with ⟨h4, _⟩ | ⟨_, rfl⟩
        · exact absurd h4 (by decide)
        · exact ho.2 (by decide)
    · exact ih hm fun p hp => hlab p (List.mem_cons_of_mem _ hp)

/-- C72 on an example: `b` goes to `b` and on to `c`. -/
example : ∃ r, compose reference anyGraph bcGraph = .ok r ∧ Relates r [['b']] [['c']] 3 := by
  obtain ⟨r, e, _, h⟩ := C72_partial reference_ok anyGraph bcGraph anyGraph_usual bcGraph_usual any_bc_specials (.inr bc_keeps)
  exact ⟨r, e, (h _ _ _).mpr ⟨[['b']], 3, 0, ⟨_, any_means, by decide, by decide⟩, ⟨_, bc_means, by decide, by decide⟩, by omega⟩⟩

/-- C73 on examples: union, concatenation and difference. -/
example : ∃ r, disjunct reference anyGraph bcGraph = .ok r ∧ Means r [(['b'], ['c'])] 0 ∧ Means r [(['b'], ['b'])] 3 := by
  obtain ⟨r, e, _, _, h⟩ := C73_disjunct reference_ok anyGraph bcGraph anyGraph_usual bcGraph_usual any_bc_specials
  exact ⟨r, e, (h _ _).mpr (.inr bc_means), (h _ _).mpr (.inl any_means)⟩

example : ∃ r, concatenate reference anyGraph bcGraph = .ok r ∧ Means r [(['b'], ['b']), (['b'], ['c'])] 3 := by
  obtain ⟨r, e, _, _, h⟩ := C73_concatenate reference_ok anyGraph bcGraph anyGraph_usual bcGraph_usual any_bc_specials
  exact ⟨r, e, (h _ _).mpr ⟨_, _, 3, 0, any_means, bc_means, rfl, by omega⟩⟩

example : ∃ r, subtract reference anyGraph bcGraph = .ok r ∧ ¬ Means r [(['b'], ['c'])] 6 := by
  obtain ⟨r, e, _, _, h⟩ := C73_subtract reference_ok anyGraph bcGraph anyGraph_usual bcGraph_usual any_bc_specials
  exact ⟨r, e, fun hm => ((h _ _).mp hm).2 0 bc_means⟩

example : ∃ r, intersect reference bcGraph bcGraph = .ok r ∧ Means r [(['b'], ['c'])] 0 := by
  obtain ⟨r, e, _, _, h⟩ := C73_intersect reference_ok bcGraph bcGraph bcGraph_usual bcGraph_usual (fun _ _ => Iff.rfl)
  exact ⟨r, e, (h _ _).mpr ⟨0, 0, bc_means, bc_means, by omega⟩⟩

example : ∃ b, compare reference bcGraph bcGraph = .ok b ∧ b = true := by
  obtain ⟨b, e, h⟩ := C73_compare reference_ok bcGraph bcGraph bcGraph_usual bcGraph_usual (fun _ _ => Iff.rfl)
  exact ⟨b, e, h.mpr fun _ _ => Iff.rfl⟩

example : Means (reference.invert bcGraph) [(['c'], ['b'])] 0 :=
  ((C73_invert reference_ok bcGraph bcGraph_usual).2.2 _ _).mpr bc_means

example : Means (inputProject reference bcGraph) [(['b'], ['b'])] 0 :=
  ((C73_inputProject reference_ok bcGraph bcGraph_usual).2.2.2 _ _).mpr ⟨_, bc_means, by decide⟩

example : Means (outputProject reference bcGraph) [(['c'], ['c'])] 0 :=
  ((C73_outputProject reference_ok bcGraph bcGraph_usual).2.2.2 _ _).mpr ⟨_, bc_means, by decide⟩

theorem bc_twice : Times (Means bcGraph) 2 [(['b'], ['c']), (['b'], ['c'])] 0 :=
  ⟨[([(['b'], ['c'])], 0), ([(['b'], ['c'])], 0)], rfl, by simpa using bc_means, rfl, by simp⟩

example : Means (repeatN reference bcGraph 2) [(['b'], ['c']), (['b'], ['c'])] 0 :=
  ((C73_repeatN reference_ok bcGraph bcGraph_usual 2).2.2 _ _).mpr bc_twice

example : ∃ r, repeatNToK reference bcGraph 1 3 = .ok r ∧ Means r [(['b'], ['c']), (['b'], ['c'])] 0 := by
  obtain ⟨r, e, _, h⟩ := C73_repeatNToK_partial reference_ok bcGraph bcGraph_usual bcGraph_plain 1 3 (by omega) (by omega)
  exact ⟨r, e, (h _ _).mpr ⟨2, by omega, by omega, bc_twice⟩⟩

/-- C73, complement on an example: everything but `a`. -/
example : ∃ r, negate reference (single ['a'] ['a']) = .ok r ∧ Means r [(['b'], ['b'])] 0 ∧ ¬ Means r [(['a'], ['a'])] 0 := by
  have u : Usual (single ['a'] ['a']) := single_usual (by decide) (by decide) Iff.rfl
  have p : Plain (single ['a'] ['a']) := single_plain (fun h => absurd h (by decide)) (fun h => absurd h (by decide))
  have hm := symbol_means (x := ['a']) (by decide) (by decide) (by decide)
  obtain ⟨r, e, _, _, _, h⟩ := C73_negate reference_ok (single ['a'] ['a']) u p (by decide)
  refine ⟨r, e, (h _ _).mpr ⟨Int.le_refl _, ?_, ?_⟩, ?_⟩
  · intro p hp
    rw [List.mem_singleton] at hp
    subst hp
    exact ⟨rfl, .inl ⟨by decide, by decide, by decide, by decide, by decide⟩⟩
  · intro v hv
    exact absurd ((hm _ _).mp hv).2 (by decide)
  · intro h'
    exact ((h _ _).mp h').2.2 0 ((hm _ _).mpr ⟨Int.le_refl _, rfl⟩)

/-- C74 on an example: the priority union maps `b` to `c` only, and `d` to itself. -/
example : ∃ r, priorityUnion reference bcGraph anyGraph = .ok r ∧ Relates r [['b']] [['c']] 0 ∧
    ¬ Relates r [['b']] [['b']] 3 ∧ Relates r [['d']] [['d']] 3 := by
  obtain ⟨r, e, _, h⟩ := C74_partial reference_ok bcGraph anyGraph bcGraph_usual anyGraph_usual bcGraph_plain anyGraph_plain
  have only : ∀ {s t w}, Relates bcGraph s t w → s = [['b']] ∧ t = [['c']] := by
    rintro s t w ⟨l, hl, rfl, rfl⟩
    obtain ⟨k, ⟨k', w', ⟨q, v, f, hp, hq, _⟩, rfl, _⟩, hf⟩ := means_iff.mp hl
    have hk : k' = [(['b'], ['c'])] := by
      generalize hz : 0 = z at hp
      cases hp with
      | nil => subst hz; rw [show bcGraph.final 0 = none by decide] at hq; cases hq
      | @cons _ _ a l w ha hp =>
        obtain ⟨rfl, rfl⟩ := bcGraph_arcs ha
        dsimp only at hp
        generalize hz : 1 = z at hp
        cases hp with
        | nil => rfl
        | cons ha _ => subst hz; exact absurd (bcGraph_arcs ha).1 (by decide)
    rw [hk, show strip [(['b'], ['c'])] = [(['b'], ['c'])] by decide] at hf
    cases hf with
    | @cons _ q _ _ hs hf =>
      cases hf
      obtain ⟨x, y⟩ := q
      rcases st_iff.mp hs with ⟨h1, _⟩ | ⟨_, _, h3, h4, _⟩
      · exact absurd h1 (by decide)
      · rcases h3 with ⟨h3, _⟩ | ⟨_, rfl⟩
        · exact absurd h3 (by decide)
        rcases h4 with ⟨h4, _⟩ | ⟨_, rfl⟩
        · exact absurd h4 (by decide)
        exact ⟨by decide, by decide⟩
  have rb : Relates bcGraph [['b']] [['c']] 0 := ⟨_, bc_means, by decide, by decide⟩
  have ord : ∀ c : Sym, c = ['b'] ∨ c = ['d'] → Ordinary c := by
    rintro c (rfl | rfl) <;> exact ⟨by decide, by decide, by decide, by decide, by decide⟩
  have kn : ∀ c : Sym, c = ['b'] ∨ c = ['d'] → ∀ x ∈ [c], Ordinary x ∨ Flags.isDiacritic x = true ∧ x ∈ bcGraph.alphabet := by
    intro c hc x hx
    rw [List.mem_singleton] at hx
    exact .inl (ord x (hx ▸ hc))
  refine ⟨r, e, (h _ (kn _ (.inl rfl)) _ _).mpr (.inl rb), ?_, (h _ (kn _ (.inr rfl)) _ _).mpr (.inr ⟨?_, ?_⟩)⟩
  · intro hr
    rcases (h _ (kn _ (.inl rfl)) _ _).mp hr with hr | ⟨hn, _⟩
    · exact absurd (only hr).2 (by decide)
    · exact hn ⟨_, _, rb⟩
  · rintro ⟨t, v, hr⟩
    exact absurd (only hr).1 (by decide)
  · have : Describes anyGraph [(['d'], ['d'])] 3 :=
      ⟨1, 2, 1, .cons (a := ⟨1, identity, identity, 2⟩) (by simp [anyGraph, Graph.arcs])
        (.identity rfl rfl ⟨⟨by decide, by decide, by decide, by decide, by decide⟩, by decide⟩) (.nil 1), by decide, by omega⟩
    exact ⟨[(['d'], ['d'])], ⟨_, 3, this, by decide, Int.le_refl _⟩, by decide, by decide⟩

/-- C74, lenient composition on an example: `b` goes on to `c`. -/
example : ∃ r, lenientComposition reference anyGraph bcGraph = .ok r ∧ Relates r [['b']] [['c']] 3 := by
  obtain ⟨r, e, _, h⟩ := C74_lenient_partial reference_ok anyGraph bcGraph anyGraph_usual bcGraph_usual anyGraph_plain bcGraph_plain
    (.inr bc_keeps)
  refine ⟨r, e, (h _ ?_ _ _).mpr (.inl ⟨[['b']], 3, 0, ⟨_, any_means, by decide, by decide⟩, ⟨_, bc_means, by decide, by decide⟩,
    by omega⟩)⟩
  intro x hx
  rw [List.mem_singleton] at hx
  subst hx
  exact .inl ⟨by decide, by decide, by decide, by decide, by decide⟩

end Hfst.Trans
