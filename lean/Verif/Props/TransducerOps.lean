import Verif.Props.TransducerCompose

/-!
# C73: operations of `HfstTransducer` on transducers with unknown and identity symbols
-/
namespace Hfst.Trans
open Hfst.Basic Hfst.Lexc

/-! ## From what the back-end does to what it means -/

theorem Result.means {g r : Graph} {P : Sym × Sym → Prop} {L : List (Sym × Sym) → Int → Prop} (h : Result g r P L)
    (l : List (Sym × Sym)) (w : Int) : Means r l w ↔ ∃ k, L k w ∧ List.Forall₂ (St g.alphabet) k l := by
  rw [means_iff]
  constructor
  · rintro ⟨k, h1, h2⟩
    exact ⟨k, (h.cost k w).mp h1, forall₂_congr h.alphabet h2⟩
  · rintro ⟨k, h1, h2⟩
    exact ⟨k, (h.cost k w).mpr h1, forall₂_congr (fun x => (h.alphabet x).symm) h2⟩

theorem Result.usual {g r : Graph} {P : Sym × Sym → Prop} {L : List (Sym × Sym) → Int → Prop} (h : Result g r P L)
    (hP : ∀ p, P p → (p.1 = identity ↔ p.2 = identity)) (hne : [] ∉ g.alphabet) : Usual r := by
  refine ⟨h.good, paired_of_labels ?_, fun e => hne ((h.alphabet _).mp e)⟩
  intro p hp
  rcases h.labels p hp with hp | rfl
  · exact hP p hp
  · exact Iff.rfl

theorem apply_ok {f : Graph → Graph → Graph} {g h : Graph} (hg : Usual g) (hh : Usual h) (hs : SameSpecials g h) :
    ∃ g' h', apply f g h true = .ok (f g' h') ∧ Usual g' ∧ Usual h' ∧ Same g' h' ∧
      (∀ x, x ∈ g'.alphabet ↔ x ∈ g.alphabet ∨ x ∈ h.alphabet) ∧
      (∀ l w, Means g' l w ↔ Means g l w) ∧ ∀ l w, Means h' l w ↔ Means h l w := by
  obtain ⟨g', h', he, h1⟩ := prepared hg hh hs
  refine ⟨g', h', ?_, h1⟩
  unfold apply
  dsimp only
  rw [he]
  rfl

theorem forall₂_split {R : Sym × Sym → Sym × Sym → Prop} {a b l : List (Sym × Sym)} (h : List.Forall₂ R (a ++ b) l) :
    ∃ l₁ l₂, l = l₁ ++ l₂ ∧ List.Forall₂ R a l₁ ∧ List.Forall₂ R b l₂ := by
  induction a generalizing l with
  | nil => exact ⟨[], l, rfl, .nil, h⟩
  | cons p a ih =>
    cases h with
    | cons h1 h2 =>
      obtain ⟨l₁, l₂, rfl, h3, h4⟩ := ih h2
      exact ⟨_ :: l₁, l₂, rfl, .cons h1 h3, h4⟩

theorem forall₂_join {R : Sym × Sym → Sym × Sym → Prop} {a b l₁ l₂ : List (Sym × Sym)} (h : List.Forall₂ R a l₁)
    (h' : List.Forall₂ R b l₂) : List.Forall₂ R (a ++ b) (l₁ ++ l₂) := by
  induction h with
  | nil => exact h'
  | cons h1 _ ih => exact .cons h1 ih

/-- A sequence that is described by a transducer and one by another of the same alphabet: the literal sequence is the same. -/
theorem cost_shared {g h : Graph} (hg : Usual g) (hh : Usual h) (hs : Same g h) {k l : List (Sym × Sym)} {w v : Int}
    (hk : Cost g k w) (hf : List.Forall₂ (St g.alphabet) k l) (hm : Means h l v) : Cost h k v := by
  refine cost_of_means hh (al := g.alphabet) (fun x => (hs x).symm) ?_ hf hm
  exact hg.cost_alpha hk

/-! ## C73 -/

section
variable {B : Backend} (hB : B.Ok)
include hB

/-- C73, union: the sequences of both, with their weights. -/
theorem C73_disjunct (g h : Graph) (hg : Usual g) (hh : Usual h) (hs : SameSpecials g h) :
    ∃ r, disjunct B g h = .ok r ∧ Usual r ∧ (∀ x, x ∈ r.alphabet ↔ x ∈ g.alphabet ∨ x ∈ h.alphabet) ∧
      ∀ l w, Means r l w ↔ Means g l w ∨ Means h l w := by
  obtain ⟨g', h', he, ug, uh, hsame, hal, dg, dh⟩ := apply_ok (f := B.disjunct) hg hh hs
  have hr := hB.disjunct g' h' ug.good uh.good hsame
  refine ⟨_, he, hr.usual ?_ ug.nonempty, fun x => (hr.alphabet x).trans (hal x), ?_⟩
  · rintro p (hp | hp)
    · exact label_paired ug.paired hp
    · exact label_paired uh.paired hp
  · intro l w
    rw [hr.means, ← dg, ← dh, means_iff, means_iff]
    constructor
    · rintro ⟨k, h1 | h1, h2⟩
      · exact .inl ⟨k, h1, h2⟩
      · exact .inr ⟨k, h1, forall₂_congr hsame h2⟩
    · rintro (⟨k, h1, h2⟩ | ⟨k, h1, h2⟩)
      · exact ⟨k, .inl h1, h2⟩
      · exact ⟨k, .inr h1, forall₂_congr (fun x => (hsame x).symm) h2⟩

/-- C73, concatenation: a sequence of the first, then one of the second, with added weights. -/
theorem C73_concatenate (g h : Graph) (hg : Usual g) (hh : Usual h) (hs : SameSpecials g h) :
    ∃ r, concatenate B g h = .ok r ∧ Usual r ∧ (∀ x, x ∈ r.alphabet ↔ x ∈ g.alphabet ∨ x ∈ h.alphabet) ∧
      ∀ l w, Means r l w ↔ ∃ l₁ l₂ w₁ w₂, Means g l₁ w₁ ∧ Means h l₂ w₂ ∧ l = l₁ ++ l₂ ∧ w₁ + w₂ ≤ w := by
  obtain ⟨g', h', he, ug, uh, hsame, hal, dg, dh⟩ := apply_ok (f := B.concat) hg hh hs
  have hr := hB.concat g' h' ug.good uh.good hsame
  refine ⟨_, he, hr.usual ?_ ug.nonempty, fun x => (hr.alphabet x).trans (hal x), ?_⟩
  · rintro p (hp | hp)
    · exact label_paired ug.paired hp
    · exact label_paired uh.paired hp
  · intro l w
    rw [hr.means]
    simp only [← dg, ← dh, means_iff]
    constructor
    · rintro ⟨_, ⟨k₁, k₂, w₁, w₂, h1, h2, rfl, hw⟩, hf⟩
      obtain ⟨l₁, l₂, rfl, f1, f2⟩ := forall₂_split hf
      exact ⟨l₁, l₂, w₁, w₂, ⟨k₁, h1, f1⟩, ⟨k₂, h2, forall₂_congr hsame f2⟩, rfl, hw⟩
    · rintro ⟨l₁, l₂, w₁, w₂, ⟨k₁, h1, f1⟩, ⟨k₂, h2, f2⟩, rfl, hw⟩
      exact ⟨k₁ ++ k₂, ⟨k₁, k₂, w₁, w₂, h1, h2, rfl, hw⟩, forall₂_join f1 (forall₂_congr (fun x => (hsame x).symm) f2)⟩

/-- C73, intersection: the sequences that both have, with added weights. -/
theorem C73_intersect (g h : Graph) (hg : Usual g) (hh : Usual h) (hs : SameSpecials g h) :
    ∃ r, intersect B g h = .ok r ∧ Usual r ∧ (∀ x, x ∈ r.alphabet ↔ x ∈ g.alphabet ∨ x ∈ h.alphabet) ∧
      ∀ l w, Means r l w ↔ ∃ w₁ w₂, Means g l w₁ ∧ Means h l w₂ ∧ w₁ + w₂ ≤ w := by
  obtain ⟨g', h', he, ug, uh, hsame, hal, dg, dh⟩ := apply_ok (f := B.intersect) hg hh hs
  have hr := hB.intersect g' h' ug.good uh.good hsame
  refine ⟨_, he, hr.usual (fun p => label_paired ug.paired) ug.nonempty, fun x => (hr.alphabet x).trans (hal x), ?_⟩
  intro l w
  rw [hr.means]
  simp only [← dg, ← dh]
  constructor
  · rintro ⟨k, ⟨w₁, w₂, h1, h2, hw⟩, hf⟩
    exact ⟨w₁, w₂, means_iff.mpr ⟨k, h1, hf⟩, means_iff.mpr ⟨k, h2, forall₂_congr hsame hf⟩, hw⟩
  · rintro ⟨w₁, w₂, h1, h2, hw⟩
    obtain ⟨k, h1, hf⟩ := means_iff.mp h1
    exact ⟨k, ⟨w₁, w₂, h1, cost_shared ug uh hsame h1 hf h2, hw⟩, hf⟩

/-- C73, difference: the sequences of the first that the second does not have, with the weights of the first. -/
theorem C73_subtract (g h : Graph) (hg : Usual g) (hh : Usual h) (hs : SameSpecials g h) :
    ∃ r, subtract B g h = .ok r ∧ Usual r ∧ (∀ x, x ∈ r.alphabet ↔ x ∈ g.alphabet ∨ x ∈ h.alphabet) ∧
      ∀ l w, Means r l w ↔ Means g l w ∧ ∀ v, ¬ Means h l v := by
  obtain ⟨g', h', he, ug, uh, hsame, hal, dg, dh⟩ := apply_ok (f := B.subtract) hg hh hs
  have hr := hB.subtract g' h' ug.good uh.good hsame
  refine ⟨_, he, hr.usual (fun p => label_paired ug.paired) ug.nonempty, fun x => (hr.alphabet x).trans (hal x), ?_⟩
  intro l w
  rw [hr.means]
  simp only [← dg, ← dh]
  constructor
  · rintro ⟨k, ⟨h1, h2⟩, hf⟩
    exact ⟨means_iff.mpr ⟨k, h1, hf⟩, fun v hv => h2 v (cost_shared ug uh hsame h1 hf hv)⟩
  · rintro ⟨h1, h2⟩
    obtain ⟨k, h1, hf⟩ := means_iff.mp h1
    exact ⟨k, ⟨h1, fun v hv => h2 v (means_iff.mpr ⟨k, hv, forall₂_congr hsame hf⟩)⟩, hf⟩

/-- C73, comparison: two transducers are equal if they have the same sequences with the same best weights. -/
theorem C73_compare (g h : Graph) (hg : Usual g) (hh : Usual h) (hs : SameSpecials g h) :
    ∃ b, compare B g h = .ok b ∧ (b = true ↔ ∀ l w, Means g l w ↔ Means h l w) := by
  obtain ⟨g', h', he, ug, uh, hsame, hal, dg, dh⟩ := prepared hg hh hs
  have r1 := hB.optimize g' ug.good
  have r2 := hB.optimize h' uh.good
  refine ⟨B.equivalent (B.optimize g') (B.optimize h'), ?_, ?_⟩
  · unfold compare
    dsimp only
    rw [he]
    rfl
  · rw [hB.equivalent _ _ r1.good r2.good (fun x => ((r1.alphabet x).trans (hsame x)).trans (r2.alphabet x).symm)]
    simp only [r1.cost, r2.cost, ← dg, ← dh]
    constructor
    · intro h l w
      rw [means_iff, means_iff]
      constructor
      · rintro ⟨k, h1, h2⟩; exact ⟨k, (h k w).mp h1, forall₂_congr hsame h2⟩
      · rintro ⟨k, h1, h2⟩; exact ⟨k, (h k w).mpr h1, forall₂_congr (fun x => (hsame x).symm) h2⟩
    · intro h k w
      constructor
      · intro hk
        obtain ⟨l, hl⟩ := forall₂_exists (al := g'.alphabet) (ug.cost_paired hk)
        exact cost_shared ug uh hsame hk hl ((h l w).mp (means_iff.mpr ⟨k, hk, hl⟩))
      · intro hk
        obtain ⟨l, hl⟩ := forall₂_exists (al := h'.alphabet) (uh.cost_paired hk)
        exact cost_shared uh ug (fun x => (hsame x).symm) hk hl ((h l w).mpr (means_iff.mpr ⟨k, hk, hl⟩))

theorem optimize_means {g : Graph} (hg : Usual g) : Usual (B.optimize g) ∧ Same (B.optimize g) g ∧
    ∀ l w, Means (B.optimize g) l w ↔ Means g l w := by
  have hr := hB.optimize g hg.good
  refine ⟨hr.usual (fun p => label_paired hg.paired) hg.nonempty, hr.alphabet, fun l w => ?_⟩
  rw [hr.means, means_iff]

omit hB in
theorem star_split {g : Graph} {k : List (Sym × Sym)} {w : Int} (h : Star (Cost g) k w) {l : List (Sym × Sym)}
    (hf : List.Forall₂ (St g.alphabet) k l) : Star (Means g) l w := by
  induction h generalizing l with
  | nil hw => cases hf; exact .nil hw
  | cons hc _ ih =>
    obtain ⟨l₁, l₂, rfl, f1, f2⟩ := forall₂_split hf
    exact .cons (means_iff.mpr ⟨_, hc, f1⟩) (ih f2)

omit hB in
theorem star_join {g : Graph} {l : List (Sym × Sym)} {w : Int} (h : Star (Means g) l w) :
    ∃ k, Star (Cost g) k w ∧ List.Forall₂ (St g.alphabet) k l := by
  induction h with
  | nil hw => exact ⟨[], .nil hw, .nil⟩
  | cons hc _ ih =>
    obtain ⟨k₁, h1, f1⟩ := means_iff.mp hc
    obtain ⟨k₂, h2, f2⟩ := ih
    exact ⟨k₁ ++ k₂, .cons h1 h2, forall₂_join f1 f2⟩

/-- C73, repetition: any number of sequences one after the other. -/
theorem C73_star (g : Graph) (hg : Usual g) : Usual (B.star g) ∧ Same (B.star g) g ∧
    ∀ l w, Means (B.star g) l w ↔ Star (Means g) l w := by
  have hr := hB.star g hg.good
  refine ⟨hr.usual (fun p => label_paired hg.paired) hg.nonempty, hr.alphabet, fun l w => ?_⟩
  rw [hr.means]
  exact ⟨fun ⟨k, h1, h2⟩ => star_split h1 h2, star_join⟩

/-- C73, inversion: both sides swapped. -/
theorem C73_invert (g : Graph) (hg : Usual g) : Usual (B.invert g) ∧ Same (B.invert g) g ∧
    ∀ l w, Means (B.invert g) l w ↔ Means g (l.map Prod.swap) w := by
  have hr := hB.invert g hg.good
  have hsw : ∀ {p q : Sym × Sym}, St g.alphabet p q → St g.alphabet p.swap q.swap := by
    rintro ⟨i, o⟩ ⟨x, y⟩ h
    rw [Prod.swap_prod_mk, Prod.swap_prod_mk]
    rcases st_iff.mp h with ⟨h1, h2, rfl, h3⟩ | ⟨h1, h2, h3, h4, h5⟩
    · exact st_iff.mpr (.inl ⟨h2, h1, rfl, h3⟩)
    · exact st_iff.mpr (.inr ⟨h2, h1, h4, h3, fun a b e => h5 b a e.symm⟩)
  have hmap : ∀ {k l : List (Sym × Sym)}, List.Forall₂ (St g.alphabet) k l →
      List.Forall₂ (St g.alphabet) (k.map Prod.swap) (l.map Prod.swap) := by
    intro k l h
    induction h with
    | nil => exact .nil
    | cons h1 _ ih => exact .cons (hsw h1) ih
  have hss : ∀ l : List (Sym × Sym), (l.map Prod.swap).map Prod.swap = l := by
    intro l; rw [List.map_map]; simp
  refine ⟨hr.usual (fun p hp => (label_paired hg.paired hp).symm) hg.nonempty, hr.alphabet, fun l w => ?_⟩
  rw [hr.means, means_iff]
  constructor
  · rintro ⟨_, ⟨k, h1, rfl⟩, h2⟩
    exact ⟨k, h1, by have := hmap h2; rwa [hss] at this⟩
  · rintro ⟨k, h1, h2⟩
    exact ⟨k.map Prod.swap, ⟨k, h1, rfl⟩, by have := hmap h2; rwa [hss] at this⟩

/-! ## Projections -/

omit hB in
theorem unknownToIdentity_spec {g : Graph} (hg : Good g) (hl : ∀ p, HasLabel g p → p.1 = p.2) (hne : [] ∉ g.alphabet) :
    Usual (unknownToIdentity g) ∧ (unknownToIdentity g).alphabet = g.alphabet ∧
      (∀ p, HasLabel (unknownToIdentity g) p → p.1 = p.2 ∧ p.1 ≠ unknown) ∧
      ∀ k w, Cost (unknownToIdentity g) k w ↔ ∃ a, Cost g a w ∧ k = a.map (renamePair unknown identity true true) := by
  have harcs : ∀ s, (unknownToIdentity g).arcs s = (g.arcs s).map (Graph.substArc unknown identity true true) := by
    intro s
    exact Graph.arcs_map g (fun l => l.map (Graph.substArc unknown identity true true)) (by simp) s g.alphabet
  have hlab : ∀ p, HasLabel (unknownToIdentity g) p → p.1 = p.2 ∧ p.1 ≠ unknown ∧ p.1 ∈ g.alphabet := by
    rintro p ⟨s, a, ha, rfl⟩
    rw [harcs] at ha
    obtain ⟨b, hb, rfl⟩ := List.mem_map.mp ha
    have h1 := hl b.label ⟨s, b, hb, rfl⟩
    have h2 := (hg.alpha.arcs s b hb).1
    simp only [Arc.label] at h1
    simp only [Graph.substArc, Arc.label, Bool.true_and, decide_eq_true_eq, ← h1, true_and]
    by_cases h : b.inp = unknown
    · rw [if_pos h]; exact ⟨fun e => unknown_ne_identity e.symm, hg.alpha.idn⟩
    · rw [if_neg h]; exact ⟨h, h2⟩
  have hf : ∀ p, renamePair unknown identity true true p = (epsilon, epsilon) ↔ p = (epsilon, epsilon) := by
    rintro ⟨x, y⟩
    have key : ∀ x : Sym, (if x = unknown then identity else x) = epsilon ↔ x = epsilon := by
      intro x
      by_cases h : x = unknown
      · subst h; decide
      · rw [if_neg h]
    simp only [renamePair, if_true, Prod.mk.injEq, key]
  refine ⟨⟨⟨?_, ?_, hg.finals⟩, ?_, hne⟩, rfl, fun p hp => ⟨(hlab p hp).1, (hlab p hp).2.1⟩, ?_⟩
  · exact wf_mapStates hg.wf _ (by simp) (by
      intro l a ha
      obtain ⟨b, hb, rfl⟩ := List.mem_map.mp ha
      exact ⟨b, hb, rfl⟩) g.alphabet
  · refine ⟨?_, hg.alpha.eps, hg.alpha.unk, hg.alpha.idn⟩
    intro s a ha
    have := hlab a.label ⟨s, a, ha, rfl⟩
    have e : a.inp = a.out := this.1
    exact ⟨this.2.2, e ▸ (this.2.2 : a.inp ∈ g.alphabet)⟩
  · exact paired_of_labels fun p hp => by rw [(hlab p hp).1]
  · have hacc : ∀ l' w, Accepts (unknownToIdentity g) l' w ↔ ∃ l, Accepts g l w ∧ l' = l.map (renamePair unknown identity true true) := by
      intro l' w
      rw [relabel_accepts (g := g) (g' := unknownToIdentity g) (R := fun p p' => p' = renamePair unknown identity true true p) ?_ (fun _ => rfl)]
      · simp only [forall₂_map]
      · intro s a'
        rw [harcs, List.mem_map]
        constructor
        · rintro ⟨a, ha, rfl⟩
          exact ⟨a, ha, rfl, rfl, by
            by_cases e1 : a.inp = unknown <;> by_cases e2 : a.out = unknown <;>
              simp [Graph.substArc, renamePair, Arc.label, e1, e2]⟩
        · rintro ⟨a, ha, ht, hw, hr⟩
          refine ⟨a, ha, ?_⟩
          obtain ⟨t, x, y, w⟩ := a'
          simp only [Arc.label, renamePair, Prod.mk.injEq] at hr ht hw
          by_cases e1 : a.inp = unknown <;> by_cases e2 : a.out = unknown <;>
            simp [Graph.substArc, ht, hw, hr.1, hr.2, e1, e2]
    intro k w
    constructor
    · rintro ⟨l', v, ha, rfl, hv⟩
      obtain ⟨l0, h0, rfl⟩ := (hacc _ _).mp ha
      exact ⟨strip l0, ⟨l0, v, h0, rfl, hv⟩, strip_map_iff _ hf l0⟩
    · rintro ⟨a, ⟨l0, v, h0, rfl, hv⟩, rfl⟩
      exact ⟨_, v, (hacc _ _).mpr ⟨l0, h0, rfl⟩, strip_map_iff _ hf l0, hv⟩

omit hB in
/-- A side of a pair as an identity pair: unknown becomes identity. -/
theorem st_side {al : List Sym} {i o x y : Sym} (h : St al (i, o) (x, y)) :
    St al (renamePair unknown identity true true (i, i)) (x, x) ∧ St al (renamePair unknown identity true true (o, o)) (y, y) := by
  have key : ∀ {i x : Sym}, i ≠ identity → (i = unknown ∧ Outside al x ∨ i ≠ unknown ∧ x = i) →
      St al (renamePair unknown identity true true (i, i)) (x, x) := by
    intro i x h1 h3
    unfold renamePair
    simp only [if_true]
    rcases h3 with ⟨a, b⟩ | ⟨a, b⟩
    · rw [if_pos a]; exact st_iff.mpr (.inl ⟨rfl, rfl, rfl, b⟩)
    · rw [if_neg a]; exact st_iff.mpr (.inr ⟨h1, h1, .inr ⟨a, b⟩, .inr ⟨a, b⟩, fun e => absurd e a⟩)
  rcases st_iff.mp h with ⟨rfl, rfl, rfl, h3⟩ | ⟨h1, h2, h3, h4, h5⟩
  · have e : renamePair unknown identity true true (identity, identity) = (identity, identity) := by decide
    rw [e]
    have : St al (identity, identity) (x, x) := st_iff.mpr (.inl ⟨rfl, rfl, rfl, h3⟩)
    exact ⟨this, this⟩
  · exact ⟨key h1 h3, key h2 h4⟩

omit hB in
/-- Every identity pair for one side comes from a pair of both sides. -/
theorem st_unside {al : List Sym} {i o : Sym} (hp : i = identity ↔ o = identity) {q : Sym × Sym} :
    (St al (renamePair unknown identity true true (i, i)) q → ∃ x y, q = (x, x) ∧ St al (i, o) (x, y)) ∧
    (St al (renamePair unknown identity true true (o, o)) q → ∃ x y, q = (y, y) ∧ St al (i, o) (x, y)) := by
  obtain ⟨q1, q2⟩ := q
  by_cases hi : i = identity
  · have ho := hp.mp hi
    subst hi ho
    have e : renamePair unknown identity true true (identity, identity) = (identity, identity) := by decide
    rw [e]
    have key : St al (identity, identity) (q1, q2) → q1 = q2 ∧ St al (identity, identity) (q1, q1) := by
      intro h
      rcases st_iff.mp h with ⟨_, _, rfl, _⟩ | ⟨h, _⟩
      · exact ⟨rfl, h⟩
      · exact absurd rfl h
    exact ⟨fun h => ⟨q1, q1, by rw [(key h).1], (key h).2⟩, fun h => ⟨q1, q1, by rw [(key h).1], (key h).2⟩⟩
  · have ho : o ≠ identity := fun e => hi (hp.mpr e)
    have side : ∀ {i : Sym}, i ≠ identity → St al (renamePair unknown identity true true (i, i)) (q1, q2) →
        q1 = q2 ∧ (i = unknown ∧ Outside al q1 ∨ i ≠ unknown ∧ q1 = i) := by
      intro i hi h
      unfold renamePair at h
      simp only [if_true] at h
      by_cases hu : i = unknown
      · rw [if_pos hu] at h
        rcases st_iff.mp h with ⟨_, _, rfl, ho⟩ | ⟨h, _⟩
        · exact ⟨rfl, .inl ⟨hu, ho⟩⟩
        · exact absurd rfl h
      · rw [if_neg hu] at h
        rcases st_iff.mp h with ⟨h, _⟩ | ⟨_, _, ⟨h, _⟩ | ⟨_, h⟩, ⟨h', _⟩ | ⟨_, h'⟩, _⟩
        · exact absurd h hi
        · exact absurd h hu
        · exact absurd h hu
        · exact absurd h' hu
        · exact ⟨h.trans h'.symm, .inr ⟨hu, h⟩⟩
    have other : ∀ (o : Sym), ∃ y, (o = unknown ∧ Outside al y ∨ o ≠ unknown ∧ y = o) ∧ (o = unknown → y ≠ q1) := by
      intro o
      by_cases hu : o = unknown
      · obtain ⟨y, hy, hne⟩ := exists_outside_ne al [q1]
        exact ⟨y, .inl ⟨hu, hy⟩, fun _ e => hne (by simp [e])⟩
      · exact ⟨o, .inr ⟨hu, rfl⟩, fun e => absurd e hu⟩
    constructor
    · intro h
      obtain ⟨e, h3⟩ := side hi h
      obtain ⟨y, h4, h5⟩ := other o
      exact ⟨q1, y, by rw [e], st_iff.mpr (.inr ⟨hi, ho, h3, h4, fun _ b e => h5 b e.symm⟩)⟩
    · intro h
      obtain ⟨e, h3⟩ := side ho h
      obtain ⟨y, h4, h5⟩ := other i
      exact ⟨y, q1, by rw [e], st_iff.mpr (.inr ⟨hi, ho, h4, h3, fun a _ e => h5 a e⟩)⟩

omit hB in
theorem strip_side (f : Sym × Sym → Sym) (l : List (Sym × Sym)) :
    strip (l.map fun p => (f p, f p)) = ((l.map f).filter fun x => x ≠ epsilon).map fun x => (x, x) := by
  induction l with
  | nil => rfl
  | cons p l ih =>
    by_cases h : f p = epsilon
    · rw [List.map_cons, h, strip_cons_eps, ih]; simp [h]
    · rw [List.map_cons, strip_cons (fun e => h (congrArg Prod.fst e)), ih]; simp [h]

omit hB in
/-- What is common to both projections. -/
theorem project_spec {g r : Graph} (hg : Usual g) (f : Sym × Sym → Sym)
    (hs : ∀ {al : List Sym} {p q}, St al p q → St al (renamePair unknown identity true true (f p, f p)) (f q, f q))
    (hu : ∀ {al : List Sym} {p q}, (p.1 = identity ↔ p.2 = identity) →
      St al (renamePair unknown identity true true (f p, f p)) q → ∃ q', q = (f q', f q') ∧ St al p q')
    (hr : Result g r (fun p => p.1 = p.2) fun l w => ∃ l', Cost g l' w ∧ l = strip (l'.map fun p => (f p, f p))) :
    Usual (unknownToIdentity r) ∧ Same (unknownToIdentity r) g ∧ isAutomaton (unknownToIdentity r) = true ∧
    ∀ l w, Means (unknownToIdentity r) l w ↔
      ∃ l', Means g l' w ∧ l = ((l'.map f).filter fun x => x ≠ epsilon).map fun x => (x, x) := by
  obtain ⟨h1, h2, h3, h4⟩ := unknownToIdentity_spec hr.good
    (fun p hp => (hr.labels p hp).elim id fun e => by rw [e]) (fun e => hg.nonempty ((hr.alphabet _).mp e))
  have hal : ∀ x, x ∈ (unknownToIdentity r).alphabet ↔ x ∈ g.alphabet := fun x => by rw [h2]; exact hr.alphabet x
  have heps : ∀ p, renamePair unknown identity true true p = (epsilon, epsilon) ↔ p = (epsilon, epsilon) := by
    rintro ⟨x, y⟩
    have key : ∀ x : Sym, (if x = unknown then identity else x) = epsilon ↔ x = epsilon := by
      intro x
      by_cases h : x = unknown
      · subst h; decide
      · rw [if_neg h]
    simp only [renamePair, if_true, Prod.mk.injEq, key]
  refine ⟨h1, hal, ?_, ?_⟩
  · unfold isAutomaton
    rw [List.all_eq_true]
    intro l hl
    rw [List.all_eq_true]
    intro a ha
    obtain ⟨s, hs'⟩ := List.getElem?_of_mem hl
    have : a ∈ (unknownToIdentity r).arcs s := by
      rw [Graph.arcs, hs']; exact ha
    have := h3 a.label ⟨s, a, this, rfl⟩
    simpa [Arc.label] using this
  · intro l w
    rw [means_iff]
    simp only [← strip_side]
    constructor
    · rintro ⟨k, hk, hf⟩
      obtain ⟨a, ha, rfl⟩ := (h4 _ _).mp hk
      obtain ⟨b, hb, rfl⟩ := (hr.cost _ _).mp ha
      replace hf := forall₂_congr hal hf
      rw [← strip_map_iff (renamePair unknown identity true true) heps, List.map_map] at hf
      · obtain ⟨l0, hf0, rfl⟩ := forall₂_unstrip hf
        clear hf
        have : ∃ l', List.Forall₂ (St g.alphabet) b l' ∧ l0 = l'.map fun p => (f p, f p) := by
          have hp := hg.cost_paired hb
          clear hb ha hk
          induction b generalizing l0 with
          | nil => cases hf0; exact ⟨[], .nil, rfl⟩
          | cons p b ih =>
            cases hf0 with
            | cons h5 h6 =>
              obtain ⟨q', rfl, h7⟩ := hu (hp p (by simp)) h5
              obtain ⟨l', h8, rfl⟩ := ih _ h6 fun p hp' => hp p (by simp [hp'])
              exact ⟨q' :: l', .cons h7 h8, rfl⟩
        obtain ⟨l', h5, rfl⟩ := this
        exact ⟨l', means_iff.mpr ⟨b, hb, h5⟩, rfl⟩
    · rintro ⟨l', hm, rfl⟩
      obtain ⟨b, hb, hf⟩ := means_iff.mp hm
      refine ⟨_, (h4 _ _).mpr ⟨_, (hr.cost _ _).mpr ⟨b, hb, rfl⟩, rfl⟩, ?_⟩
      refine forall₂_congr (fun x => (hal x).symm) ?_
      have : List.Forall₂ (St g.alphabet) (b.map fun p => renamePair unknown identity true true (f p, f p))
          (l'.map fun p => (f p, f p)) := by
        clear hm hb
        induction hf with
        | nil => exact .nil
        | cons h5 _ ih => exact .cons (hs h5) ih
      have := forall₂_strip this
      rw [← strip_map_iff (renamePair unknown identity true true) heps, List.map_map]
      exact this

/-- C73, projection to the input side: the input strings, with the best weights. -/
theorem C73_inputProject (g : Graph) (hg : Usual g) : Usual (inputProject B g) ∧ Same (inputProject B g) g ∧
    isAutomaton (inputProject B g) = true ∧
    ∀ l w, Means (inputProject B g) l w ↔ ∃ l', Means g l' w ∧ l = (ins l').map fun x => (x, x) :=
  project_spec hg Prod.fst (fun {_ p q} h => (st_side (i := p.1) (o := p.2) (x := q.1) (y := q.2) h).1)
    (fun {_ p q} hp h => by
      obtain ⟨x, y, h1, h2⟩ := (st_unside (i := p.1) (o := p.2) hp).1 h
      exact ⟨(x, y), h1, h2⟩) (hB.projectInput g hg.good)

/-- C73, projection to the output side: the output strings, with the best weights. -/
theorem C73_outputProject (g : Graph) (hg : Usual g) : Usual (outputProject B g) ∧ Same (outputProject B g) g ∧
    isAutomaton (outputProject B g) = true ∧
    ∀ l w, Means (outputProject B g) l w ↔ ∃ l', Means g l' w ∧ l = (outs l').map fun x => (x, x) :=
  project_spec hg Prod.snd (fun {_ p q} h => (st_side (i := p.1) (o := p.2) (x := q.1) (y := q.2) h).2)
    (fun {_ p q} hp h => by
      obtain ⟨x, y, h1, h2⟩ := (st_unside (i := p.1) (o := p.2) hp).2 h
      exact ⟨(x, y), h1, h2⟩) (hB.projectOutput g hg.good)

end

end Hfst.Trans
