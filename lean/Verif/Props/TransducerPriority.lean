import Verif.Props.TransducerRepeat

/-!
# C72, C74: composition of unknown symbols, priority union and lenient composition
-/
namespace Hfst.Trans
open Hfst.Basic Hfst.Lexc

/-! ## C72 -/

section
variable {B : Backend} (hB : B.Ok)
include hB

omit hB in
theorem single_plain {x y : Sym} (hx : isSpecial x = true → x = epsilon ∨ x = unknown ∨ x = identity)
    (hy : isSpecial y = true → y = epsilon ∨ y = unknown ∨ y = identity) : Plain (single x y) := by
  intro z hz hm
  rcases (single_alphabet ..).mp hm with e | e | e | rfl | rfl
  · exact .inl e
  · exact .inr (.inl e)
  · exact .inr (.inr e)
  · exact hx hz
  · exact hy hz

/-- The literal sequences of a composition. -/
theorem compose_literal {g h : Graph} (hg : Usual g) (hh : Usual h) (hs : SameSpecials g h) :
    ∃ r g' h', compose B g h = .ok r ∧ Usual r ∧ Usual g' ∧ Usual h' ∧ Same r g' ∧ Same r h' ∧
      (∀ x, x ∈ g'.alphabet ↔ x ∈ g.alphabet ∨ x ∈ h.alphabet) ∧
      (∀ l w, Means g' l w ↔ Means g l w) ∧ (∀ l w, Means h' l w ↔ Means h l w) ∧
      ∀ k w, Cost r k w → ∃ a b j w₁ w₂, Cost g' a w₁ ∧ Cost h' b w₂ ∧ Joined (a.map hatOut) (b.map hatIn) j ∧
        k = (strip j).map fixp := by
  obtain ⟨g', h', he, ug, uh, hsame, hal, dg, dh⟩ := prepared hg hh hs
  obtain ⟨g1, e1, G1, s1, c1⟩ := hat_spec ug.good false true hatOut
    (by intro p; simp [renamePair, hatOut, hat]) hatOut_eps
  obtain ⟨h1, e2, H1, s2, c2⟩ := hat_spec uh.good true false hatIn
    (by intro p; simp [renamePair, hatIn, hat]) hatIn_eps
  have hsame1 : Same g1 h1 := fun x => by rw [s1, s2]; exact hsame x
  have hG := hB.compose_good g1 h1 G1 H1 hsame1
  have hA : Same (B.compose g1 h1) g' := fun x => (hB.compose_alphabet g1 h1 G1 H1 hsame1 x).trans (s1 x)
  obtain ⟨r, e3, ur, s3, c3⟩ := fix_spec hG (fun e => ug.nonempty ((hA _).mp e))
  have hrg : ∀ x, x ∈ r.alphabet ↔ x ∈ g'.alphabet := fun x => (s3 x).trans (hA x)
  refine ⟨r, g', h', ?_, ur, ug, uh, hrg, fun x => (hrg x).trans (hsame x), hal, dg, dh, ?_⟩
  · unfold compose
    dsimp only
    rw [he]
    simp only [Outcome.bind]
    rw [e1]
    simp only []
    rw [e2]
    simp only []
    exact e3
  · intro k w hk
    obtain ⟨k0, hk0, rfl⟩ := (c3 _ _).mp hk
    obtain ⟨A, C, j, w₁, w₂, hA', hC', hj, rfl, hw⟩ := hB.compose_sound g1 h1 G1 H1 hsame1 _ _ hk0
    obtain ⟨a, ha, rfl⟩ := (c1 _ _).mp hA'
    obtain ⟨b, hb, rfl⟩ := (c2 _ _).mp hC'
    exact ⟨a, b, j, w₁, w₂, ha, hb, hj, rfl⟩

/-- C72 fails: the first transducer maps every unknown symbol to `a` and the second maps `a` to every unknown symbol, but
their composition does not map the symbol `b` to itself. -/
theorem C72_violated : ∃ r, compose B (single unknown ['a']) (single ['a'] unknown) = .ok r ∧
    Relates (single unknown ['a']) [['b']] [['a']] 0 ∧ Relates (single ['a'] unknown) [['a']] [['b']] 0 ∧
    ¬ ∃ w, Relates r [['b']] [['b']] w := by
  have u1 : Usual (single unknown ['a']) := single_usual (by decide) (by decide) (by decide)
  have u2 : Usual (single ['a'] unknown) := single_usual (by decide) (by decide) (by decide)
  have hpa : isSpecial ['a'] = true → ['a'] = epsilon ∨ ['a'] = unknown ∨ ['a'] = identity := fun h => absurd h (by decide)
  have hpu : isSpecial unknown = true → unknown = epsilon ∨ unknown = unknown ∨ unknown = identity := fun _ => .inr (.inl rfl)
  have hs := (single_plain hpu hpa).same (single_plain hpa hpu) u1.good u2.good
  have ho : ∀ {al}, ['b'] ∉ al → Outside al ['b'] := fun h => ⟨⟨by decide, by decide, by decide, by decide, by decide⟩, h⟩
  have m1 : Means (single unknown ['a']) [(['b'], ['a'])] 0 := (single_means (by decide) _ _).mpr
    ⟨Int.le_refl _, _, rfl, st_iff.mpr (.inr ⟨by decide, by decide, .inl ⟨rfl, ho (by decide)⟩, .inr ⟨by decide, rfl⟩, by decide⟩)⟩
  have m2 : Means (single ['a'] unknown) [(['a'], ['b'])] 0 := (single_means (by decide) _ _).mpr
    ⟨Int.le_refl _, _, rfl, st_iff.mpr (.inr ⟨by decide, by decide, .inr ⟨by decide, rfl⟩, .inl ⟨rfl, ho (by decide)⟩, by decide⟩)⟩
  obtain ⟨r, g', h', e, ur, ug, uh, hrg, hrh, hal, dg, dh, hlit⟩ := compose_literal hB u1 u2 hs
  refine ⟨r, e, ⟨_, m1, rfl, rfl⟩, ⟨_, m2, rfl, rfl⟩, ?_⟩
  rintro ⟨w, c, hc, hi, hout⟩
  have hb : ['b'] ∉ r.alphabet := by
    rw [hrg, hal, single_alphabet, single_alphabet]
    decide
  -- the literal sequences of both
  have l1 : ∀ a w, Cost g' a w → ∃ i, a = [(i, ['a'])] ∧ i ≠ identity ∧ i ≠ epsilon := by
    intro a w ha
    obtain ⟨l, hl⟩ := forall₂_exists (al := g'.alphabet) (ug.cost_paired ha)
    obtain ⟨_, ⟨x, y⟩, rfl, hq⟩ := (single_means (by decide) _ _).mp ((dg l w).mp (means_iff.mpr ⟨a, ha, hl⟩))
    obtain ⟨ho, hy⟩ : Outside [epsilon, unknown, identity, unknown, ['a']] x ∧ y = ['a'] := by
      rcases st_iff.mp hq with ⟨e, _⟩ | ⟨_, _, ⟨_, ho⟩ | ⟨e, _⟩, ⟨e', _⟩ | ⟨_, rfl⟩, _⟩
      · exact absurd e (by decide)
      · exact absurd e' (by decide)
      · exact ⟨ho, rfl⟩
      · exact absurd rfl e
      · exact absurd rfl e
    subst hy
    cases hl with
    | @cons p _ a _ hp ht =>
      cases ht
      obtain ⟨i, o⟩ := p
      have ha' : ['a'] ∈ g'.alphabet := (hal _).mpr (.inl ((single_alphabet ..).mpr (by simp)))
      rcases st_iff.mp hp with ⟨_, _, rfl, h⟩ | ⟨h1, _, h3, ⟨_, h⟩ | ⟨_, rfl⟩, _⟩
      · exact absurd ha' h.2
      · exact absurd ha' h.2
      · refine ⟨i, rfl, h1, ?_⟩
        rintro rfl
        rcases h3 with ⟨e, _⟩ | ⟨_, rfl⟩
        · exact epsilon_ne_unknown e
        · exact ho.1.1 rfl
  have l2 : ∀ a w, Cost h' a w → ∃ i, a = [(['a'], i)] ∧ i ≠ identity ∧ i ≠ epsilon := by
    intro a w ha
    obtain ⟨l, hl⟩ := forall₂_exists (al := h'.alphabet) (uh.cost_paired ha)
    obtain ⟨_, ⟨x, y⟩, rfl, hq⟩ := (single_means (by decide) _ _).mp ((dh l w).mp (means_iff.mpr ⟨a, ha, hl⟩))
    obtain ⟨ho, hx⟩ : Outside [epsilon, unknown, identity, ['a'], unknown] y ∧ x = ['a'] := by
      rcases st_iff.mp hq with ⟨e, _⟩ | ⟨_, _, ⟨e, _⟩ | ⟨_, rfl⟩, ⟨_, ho⟩ | ⟨e', _⟩, _⟩
      · exact absurd e (by decide)
      · exact absurd e (by decide)
      · exact absurd e (by decide)
      · exact ⟨ho, rfl⟩
      · exact absurd rfl e'
    subst hx
    cases hl with
    | @cons p _ a _ hp ht =>
      cases ht
      obtain ⟨i, o⟩ := p
      have ha' : ['a'] ∈ h'.alphabet := (hrh _).mp ((hrg _).mpr ((hal _).mpr (.inl ((single_alphabet ..).mpr (by simp)))))
      rcases st_iff.mp hp with ⟨_, _, rfl, h⟩ | ⟨_, h2, ⟨_, h⟩ | ⟨_, rfl⟩, h4, _⟩
      · exact absurd ha' h.2
      · exact absurd ha' h.2
      · refine ⟨o, rfl, h2, ?_⟩
        rintro rfl
        rcases h4 with ⟨e, _⟩ | ⟨_, rfl⟩
        · exact epsilon_ne_unknown e
        · exact ho.1.1 rfl
  obtain ⟨k, hk, hf⟩ := means_iff.mp hc
  obtain ⟨a, b, j, w₁, w₂, ha, hb', hj, rfl⟩ := hlit k w hk
  obtain ⟨x, rfl, hx1, hx2⟩ := l1 a w₁ ha
  obtain ⟨z, rfl, hz1, hz2⟩ := l2 b w₂ hb'
  have hj : j = [(x, z)] := by
    simp only [List.map_cons, List.map_nil, hatOut, hatIn, show hat ['a'] = ['a'] by decide] at hj
    generalize hA : [(x, ['a'])] = A at hj
    generalize hC : [(['a'], z)] = C at hj
    cases hj with
    | nil => cases hA
    | both _ h =>
      simp only [List.cons.injEq, Prod.mk.injEq] at hA hC
      obtain ⟨⟨rfl, rfl⟩, rfl⟩ := hA
      obtain ⟨⟨_, rfl⟩, rfl⟩ := hC
      cases h
      rfl
    | left => simp only [List.cons.injEq, Prod.mk.injEq] at hA; exact absurd hA.1.2 (by decide)
    | right => simp only [List.cons.injEq, Prod.mk.injEq] at hC; exact absurd hC.1.1 (by decide)
  subst hj
  have hfx : fixp (x, z) = (x, z) := by
    unfold fixp
    rw [if_neg (fun h => hx1 h.1), if_neg (fun h => hz1 h.1)]
  rw [strip_cons (fun e => hx2 (congrArg Prod.fst e)), List.map_cons, hfx] at hf
  cases hf with
  | @cons _ q _ _ hq ht =>
    cases ht
    obtain ⟨c, d⟩ := q
    have al : x ∈ r.alphabet ∧ z ∈ r.alphabet := by
      have h1 := (ug.cost_alpha ha (x, ['a']) (by simp)).1
      have h2 := (uh.cost_alpha hb' (['a'], z) (by simp)).2
      exact ⟨(hrg _).mpr h1, (hrh _).mpr h2⟩
    have hc1 : c = ['b'] := by
      rw [ins_cons] at hi
      by_cases e : c = epsilon
      · rw [if_pos e] at hi; cases hi
      · rw [if_neg e] at hi; exact (List.cons.inj hi).1
    have hd1 : d = ['b'] := by
      rw [outs_cons] at hout
      by_cases e : d = epsilon
      · rw [if_pos e] at hout; cases hout
      · rw [if_neg e] at hout; exact (List.cons.inj hout).1
    subst hc1 hd1
    rcases st_iff.mp hq with ⟨e, _⟩ | ⟨_, _, ⟨e1, _⟩ | ⟨_, e⟩, ⟨e2, _⟩ | ⟨_, e'⟩, h5⟩
    · exact hx1 e
    · exact h5 e1 e2 rfl
    · exact hb (e' ▸ al.2)
    · exact hb (e ▸ al.1)
    · exact hb (e ▸ al.1)

/-! ## Pruning the alphabet -/

omit hB in
theorem mem_symbolsUsed {g : Graph} {x : Sym} : x ∈ g.symbolsUsed ↔ ∃ p, HasLabel g p ∧ (x = p.1 ∨ x = p.2) := by
  unfold Graph.symbolsUsed
  simp only [List.mem_flatMap, List.mem_cons, List.not_mem_nil, or_false]
  constructor
  · rintro ⟨l, hl, a, ha, h⟩
    obtain ⟨s, hs⟩ := List.getElem?_of_mem hl
    exact ⟨a.label, ⟨s, a, by rw [Graph.arcs, hs]; exact ha, rfl⟩, h⟩
  · rintro ⟨p, ⟨s, a, ha, rfl⟩, h⟩
    unfold Graph.arcs at ha
    cases hs : g.states[s]? with
    | none => rw [hs] at ha; exact absurd ha (by simp)
    | some l =>
      rw [hs] at ha
      exact ⟨l, List.mem_of_getElem? hs, a, ha, h⟩

omit hB in
theorem prune_means {g : Graph} (hg : Usual g) : Usual (g.pruneAlphabet false) ∧
    (∀ x, x ∈ (g.pruneAlphabet false).alphabet → x ∈ g.alphabet) ∧
    ∀ l w, Means (g.pruneAlphabet false) l w ↔ Means g l w := by
  by_cases hu : unknown ∈ g.symbolsUsed ∨ identity ∈ g.symbolsUsed
  · have : g.pruneAlphabet false = g := by
      unfold Graph.pruneAlphabet
      simp only [Bool.not_false, Bool.true_and]
      rw [if_pos]
      simpa using hu
    rw [this]
    exact ⟨hg, fun _ h => h, fun _ _ => Iff.rfl⟩
  · have e : g.pruneAlphabet false = g.pruneAlphabet := by
      unfold Graph.pruneAlphabet
      simp only [Bool.not_false, Bool.true_and, Bool.not_true, Bool.false_and, Bool.false_eq_true, if_false]
      rw [if_neg]
      simpa using hu
    rw [e]
    rw [not_or, mem_symbolsUsed, mem_symbolsUsed] at hu
    obtain ⟨h1, h2, h3⟩ := prune_spec hg.good
    have hsub : ∀ x, x ∈ g.pruneAlphabet.alphabet → x ∈ g.alphabet := by
      intro x hx
      simp only [Graph.pruneAlphabet, Bool.not_true, Bool.false_and, Bool.false_eq_true, if_false] at hx
      rw [mem_foldl_setErase] at hx
      exact hx.1
    refine ⟨⟨h1, paired_of_labels fun p hp => label_paired hg.paired (h2 p hp), fun h => hg.nonempty (hsub _ h)⟩, hsub, ?_⟩
    have key : ∀ {al al' : List Sym} {k l : List (Sym × Sym)}, (∀ p ∈ k, HasLabel g p) → List.Forall₂ (St al) k l →
        List.Forall₂ (St al') k l := by
      intro al al' k l hk hf
      induction hf with
      | nil => exact .nil
      | @cons p q k l h _ ih =>
        refine .cons ?_ (ih fun p hp => hk p (by simp [hp]))
        have hp := hk p (by simp)
        unfold St at h ⊢
        cases h with
        | itself a b c d => exact .itself a b c d
        | identity a => exact absurd ⟨p, hp, .inl a.symm⟩ hu.2
        | input a => exact absurd ⟨p, hp, .inl a.symm⟩ hu.1
        | output a => exact absurd ⟨p, hp, .inr a.symm⟩ hu.1
        | both a => exact absurd ⟨p, hp, .inl a.symm⟩ hu.1
    intro l w
    rw [means_iff, means_iff]
    constructor
    · rintro ⟨k, hk, hf⟩
      have hk' := (h3 k w).mp hk
      exact ⟨k, hk', key hk'.labels hf⟩
    · rintro ⟨k, hk, hf⟩
      exact ⟨k, (h3 k w).mpr hk, key hk.labels hf⟩

/-! ## C74 -/

omit hB in
theorem ins_dup (s : List Sym) (h : epsilon ∉ s) : ins (s.map fun x => (x, x)) = s := by
  unfold ins
  rw [List.map_map]
  simp only [Function.comp_def, List.map_id']
  rw [List.filter_eq_self]
  intro x hx
  simp only [decide_eq_true_eq]
  rintro rfl
  exact h hx

omit hB in
theorem outs_dup (s : List Sym) (h : epsilon ∉ s) : outs (s.map fun x => (x, x)) = s := by
  unfold outs
  rw [List.map_map]
  simp only [Function.comp_def, List.map_id']
  rw [List.filter_eq_self]
  intro x hx
  simp only [decide_eq_true_eq]
  rintro rfl
  exact h hx

omit hB in
theorem ins_no_eps (l : List (Sym × Sym)) : epsilon ∉ ins l := by
  intro h
  have := (List.mem_filter.mp h).2
  simp at this

omit hB in
theorem outs_no_eps (l : List (Sym × Sym)) : epsilon ∉ outs l := by
  intro h
  have := (List.mem_filter.mp h).2
  simp at this

omit hB in
theorem dup_of_pairs {l : List (Sym × Sym)} (h : ∀ p ∈ l, p.1 = p.2) : l = (l.map Prod.fst).map fun x => (x, x) := by
  induction l with
  | nil => rfl
  | cons p l ih =>
    obtain ⟨x, y⟩ := p
    have e := h (x, y) (by simp)
    dsimp only at e
    subst e
    rw [List.map_cons, List.map_cons, ← ih fun p hp => h p (by simp [hp])]

/-- The strings that priority union takes from the second transducer: they consist of ordinary symbols and of flag
diacritics that the first one knows. -/
def Known (g : Graph) (s : List Sym) : Prop := ∀ x ∈ s, Ordinary x ∨ Flags.isDiacritic x = true ∧ x ∈ g.alphabet

theorem priority_means (g h : Graph) (hg : Usual g) (hh : Usual h) (pg : Plain g) (ph : Plain h) :
    ∃ r, priorityUnion B g h = .ok r ∧ Usual r ∧ (∀ x, x ∈ r.alphabet ↔ x ∈ g.alphabet ∨ x ∈ h.alphabet) ∧
      ∀ s t w, Relates r s t w ↔ Relates g s t w ∨ Known g s ∧ (∀ t' v, ¬ Relates g s t' v) ∧ Relates h s t w := by
  obtain ⟨u1, s1, a1, m1⟩ := C73_inputProject hB g hg
  obtain ⟨u2, s2, m2⟩ := optimize_means hB u1
  have a2 : isAutomaton (B.optimize (inputProject B g)) = true :=
    isAutomaton_iff.mpr ((hB.optimize _ u1.good).pure (isAutomaton_iff.mp a1))
  have hal2 : ∀ x, x ∈ (B.optimize (inputProject B g)).alphabet ↔ x ∈ g.alphabet := fun x => (s2 x).trans (s1 x)
  obtain ⟨c, e3, u3, _, s3, m3⟩ := C73_negate hB _ u2 (pg.mono fun x => (hal2 x).mp) a2
  obtain ⟨u4, s4, m4⟩ := prune_means u3
  have hsub : ∀ x, x ∈ (c.pruneAlphabet false).alphabet → x ∈ g.alphabet := fun x hx => (hal2 x).mp ((s3 x).mp (s4 x hx))
  have mc : ∀ l w, Means (c.pruneAlphabet false) l w ↔ 0 ≤ w ∧ ∃ s, l = s.map (fun x => (x, x)) ∧ Known g s ∧ epsilon ∉ s ∧
      ∀ t' v, ¬ Relates g s t' v := by
    intro l w
    rw [m4, m3]
    refine and_congr_right fun _ => ?_
    constructor
    · rintro ⟨h1, h2⟩
      have hl := dup_of_pairs fun p hp => (h1 p hp).1
      have hk : ∀ p ∈ l, Ordinary p.1 ∨ Flags.isDiacritic p.1 = true ∧ p.1 ∈ g.alphabet :=
        fun p hp => (h1 p hp).2.imp id fun h => ⟨h.1, (hal2 _).mp h.2⟩
      refine ⟨l.map Prod.fst, hl, ?_, ?_, ?_⟩
      · intro x hx
        obtain ⟨p, hp, rfl⟩ := List.mem_map.mp hx
        exact hk p hp
      · intro hx
        obtain ⟨p, hp, e⟩ := List.mem_map.mp hx
        rcases hk p hp with h | h
        · exact h.1 e
        · exact (diacritic_ne h.1).1 e
      · rintro t' v ⟨l', hm, hi, _⟩
        refine h2 v ((m2 _ _).mpr ((m1 _ _).mpr ⟨l', hm, ?_⟩))
        rw [hi]
        exact hl
    · rintro ⟨s, rfl, h1, h2, h3⟩
      refine ⟨?_, ?_⟩
      · intro p hp
        obtain ⟨x, hx, rfl⟩ := List.mem_map.mp hp
        exact ⟨rfl, (h1 x hx).imp id fun h => ⟨h.1, (hal2 _).mpr h.2⟩⟩
      · intro v hv
        obtain ⟨l', hm, e⟩ := (m1 _ _).mp ((m2 _ _).mp hv)
        have : s = ins l' := by
          have := congrArg (List.map Prod.fst) e
          simpa [Function.comp_def] using this
        exact h3 (outs l') v ⟨l', hm, this.symm, rfl⟩
  have hspec := (pg.mono hsub).same ph u4.good hh.good
  have hkeep : KeepsInput (c.pruneAlphabet false) := by
    intro l w hm x y hxy _
    obtain ⟨_, s, rfl, _⟩ := (mc l w).mp hm
    obtain ⟨z, _, e⟩ := List.mem_map.mp hxy
    simp only [Prod.mk.injEq] at e
    rw [← e.1, ← e.2]
  obtain ⟨r₁, e5, u5, s5, _⟩ := compose_means hB u4 hh hspec
  obtain ⟨r₁', e5', _, rel5⟩ := C72_partial hB _ h u4 hh hspec (.inl hkeep)
  rw [e5] at e5'
  cases e5'
  obtain ⟨u6, s6, m6⟩ := optimize_means hB u5
  have hal6 : ∀ x, x ∈ (B.optimize r₁).alphabet → x ∈ g.alphabet ∨ x ∈ h.alphabet := by
    intro x hx
    exact ((s5 x).mp ((s6 x).mp hx)).imp (hsub x) id
  have p6 : Plain (B.optimize r₁) := fun x hx hm => (hal6 x hm).elim (pg x hx) (ph x hx)
  obtain ⟨r, e7, u7, s7, m7⟩ := C73_disjunct hB g (B.optimize r₁) hg u6 (pg.same p6 hg.good u6.good)
  obtain ⟨u8, s8, m8⟩ := optimize_means hB u7
  refine ⟨B.optimize r, ?_, u8, ?_, ?_⟩
  · unfold priorityUnion
    dsimp only
    rw [e3]
    simp only [Outcome.bind]
    rw [e5]
    simp only []
    rw [e7]
  · intro x
    rw [s8, s7, s6, s5]
    constructor
    · rintro (h | h | h)
      · exact .inl h
      · exact .inl (hsub x h)
      · exact .inr h
    · rintro (h | h)
      · exact .inl h
      · exact .inr (.inr h)
  · intro s t w
    have hrel : Relates (B.optimize r) s t w ↔ Relates g s t w ∨ Relates r₁ s t w := by
      unfold Relates
      simp only [m8, m7, m6]
      constructor
      · rintro ⟨l, h | h, h'⟩
        · exact .inl ⟨l, h, h'⟩
        · exact .inr ⟨l, h, h'⟩
      · rintro (⟨l, h, h'⟩ | ⟨l, h, h'⟩)
        · exact ⟨l, .inl h, h'⟩
        · exact ⟨l, .inr h, h'⟩
    rw [hrel, rel5]
    refine or_congr Iff.rfl ?_
    constructor
    · rintro ⟨u, w₁, w₂, ⟨l, hl, hi, ho⟩, h2, hw⟩
      obtain ⟨h0, s', rfl, k1, k2, k3⟩ := (mc l w₁).mp hl
      rw [ins_dup s' k2] at hi
      rw [outs_dup s' k2] at ho
      subst hi ho
      obtain ⟨l₂, hl₂, hx⟩ := h2
      exact ⟨k1, k3, l₂, hl₂.mono (by omega), hx⟩
    · rintro ⟨k1, k3, h2⟩
      have k2 : epsilon ∉ s := by
        obtain ⟨l, _, rfl, _⟩ := h2
        exact ins_no_eps l
      exact ⟨s, 0, w, ⟨_, (mc _ _).mpr ⟨Int.le_refl _, s, rfl, k1, k2, k3⟩, ins_dup s k2, outs_dup s k2⟩, h2, by omega⟩

/-- C74: the priority union relates a string as the first transducer does, and as the second one only if the first does
nothing with it.  Missing: strings of the second transducer with flag diacritics that the first one does not know (see
`C74_violated`) or with the special symbols of pattern matching. -/
theorem C74_partial (g h : Graph) (hg : Usual g) (hh : Usual h) (pg : Plain g) (ph : Plain h) :
    ∃ r, priorityUnion B g h = .ok r ∧ Usual r ∧ ∀ s,
      (∀ x ∈ s, Ordinary x ∨ Flags.isDiacritic x = true ∧ x ∈ g.alphabet) → ∀ t w,
        Relates r s t w ↔ Relates g s t w ∨ (¬ ∃ t' v, Relates g s t' v) ∧ Relates h s t w := by
  obtain ⟨r, e, u, _, hr⟩ := priority_means hB g h hg hh pg ph
  refine ⟨r, e, u, fun s hs t w => ?_⟩
  rw [hr]
  refine or_congr Iff.rfl ?_
  constructor
  · rintro ⟨_, h1, h2⟩
    exact ⟨fun ⟨t', v, h⟩ => h1 t' v h, h2⟩
  · rintro ⟨h1, h2⟩
    exact ⟨hs, fun t' v h => h1 ⟨t', v, h⟩, h2⟩

/-- C74 for lenient composition: a string is related as in the composition, if this relates it to anything, and as in the
first transducer otherwise. -/
theorem C74_lenient_partial (g h : Graph) (hg : Usual g) (hh : Usual h) (pg : Plain g) (ph : Plain h)
    (hk : KeepsInput g ∨ KeepsOutput h) :
    ∃ r, lenientComposition B g h = .ok r ∧ Usual r ∧ ∀ s,
      (∀ x ∈ s, Ordinary x ∨ Flags.isDiacritic x = true ∧ x ∈ g.alphabet) → ∀ t w,
        Relates r s t w ↔ (∃ u w₁ w₂, Relates g s u w₁ ∧ Relates h u t w₂ ∧ w₁ + w₂ ≤ w) ∨
          (¬ ∃ u t' v v', Relates g s u v ∧ Relates h u t' v') ∧ Relates g s t w := by
  have hspec := pg.same ph hg.good hh.good
  obtain ⟨c, e1, u1, s1, _⟩ := compose_means hB hg hh hspec
  obtain ⟨c', e1', _, rel1⟩ := C72_partial hB g h hg hh hspec hk
  rw [e1] at e1'
  cases e1'
  obtain ⟨u2, s2, m2⟩ := optimize_means hB u1
  have rel2 : ∀ s t w, Relates (B.optimize c) s t w ↔ Relates c s t w := by intro s t w; simp only [Relates, m2]
  have p2 : Plain (B.optimize c) := fun x hx hm => ((s1 x).mp ((s2 x).mp hm)).elim (pg x hx) (ph x hx)
  obtain ⟨r, e3, u3, s3, rel3⟩ := priority_means hB (B.optimize c) g u2 hg p2 pg
  obtain ⟨u4, s4, m4⟩ := optimize_means hB u3
  have rel4 : ∀ s t w, Relates (B.optimize r) s t w ↔ Relates r s t w := by intro s t w; simp only [Relates, m4]
  refine ⟨B.optimize r, ?_, u4, fun s hs t w => ?_⟩
  · unfold lenientComposition
    rw [e1]
    simp only [Outcome.bind]
    rw [e3]
  · rw [rel4, rel3]
    simp only [rel2, rel1]
    refine or_congr Iff.rfl ?_
    constructor
    · rintro ⟨_, h1, h2⟩
      exact ⟨fun ⟨u, t', v, v', a, b⟩ => h1 t' (v + v') ⟨u, v, v', a, b, Int.le_refl _⟩, h2⟩
    · rintro ⟨h1, h2⟩
      refine ⟨?_, ?_, h2⟩
      · intro x hx
        exact (hs x hx).imp id fun h => ⟨h.1, (s2 x).mpr ((s1 x).mpr (.inl h.2))⟩
      · rintro t' v ⟨u, w₁, w₂, a, b, _⟩
        exact h1 ⟨u, t', w₁, w₂, a, b⟩

/-- C74 fails for flag diacritics: the second transducer accepts the flag diacritic `@P.F.V@`, the first one does nothing with
it, and it is not in the priority union. -/
theorem C74_violated : ∃ r, priorityUnion B (single ['a'] ['a']) (single "@P.F.V@".toList "@P.F.V@".toList) = .ok r ∧
    (¬ ∃ t v, Relates (single ['a'] ['a']) ["@P.F.V@".toList] t v) ∧
    Relates (single "@P.F.V@".toList "@P.F.V@".toList) ["@P.F.V@".toList] ["@P.F.V@".toList] 0 ∧
    ¬ ∃ t v, Relates r ["@P.F.V@".toList] t v := by
  have hd : Flags.isDiacritic "@P.F.V@".toList = true := by decide
  obtain ⟨d1, d2, d3, d4⟩ := diacritic_ne hd
  obtain ⟨r, e, _, _, hr⟩ := priority_means hB (single ['a'] ['a']) (single "@P.F.V@".toList "@P.F.V@".toList)
    (single_usual (by decide) (by decide) Iff.rfl) (single_usual d4 d4 Iff.rfl)
    (single_plain (fun h => absurd h (by decide)) (fun h => absurd h (by decide)))
    (single_plain (fun h => absurd h (by decide)) (fun h => absurd h (by decide)))
  have hno : ¬ ∃ t v, Relates (single ['a'] ['a']) ["@P.F.V@".toList] t v := by
    rintro ⟨t, v, l, hl, hi, _⟩
    obtain ⟨_, rfl⟩ := (symbol_means (by decide) (by decide) (by decide) _ _).mp hl
    exact absurd hi (by decide)
  refine ⟨r, e, hno, ⟨_, (symbol_means d1 d2 d3 _ _).mpr ⟨Int.le_refl _, rfl⟩, by decide, by decide⟩, ?_⟩
  rintro ⟨t, v, h⟩
  rcases (hr _ _ _).mp h with h | ⟨h, _⟩
  · exact hno ⟨t, v, h⟩
  · rcases h _ (List.mem_cons_self ..) with h | ⟨_, h⟩
    · have := h.2.2.2.1
      rw [hd] at this
      cases this
    · rw [single_alphabet] at h
      revert h
      decide

end

end Hfst.Trans
