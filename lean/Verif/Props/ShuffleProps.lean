import Verif.Props.ShuffleMain
import Verif.Props.TransducerBackend

/-!
# C79: shuffle accepts the interleavings
-/
namespace Hfst.Trans
open Hfst.Basic Hfst.Lexc
open Graph

theorem st_diag {al : List Sym} {x : Sym} (hx : x ≠ unknown) {q : Sym × Sym} : St al (x, x) q ↔
    (x ≠ identity ∧ q = (x, x)) ∨ (x = identity ∧ ∃ y, Outside al y ∧ q = (y, y)) := by
  obtain ⟨y, z⟩ := q
  unfold St
  constructor
  · intro h
    cases h with
    | itself h1 h2 => exact .inl ⟨h2, rfl⟩
    | identity h1 h2 h3 => exact .inr ⟨h1, _, h3, rfl⟩
    | input h1 => exact absurd h1 hx
    | output h1 => exact absurd h1 hx
    | both h1 => exact absurd h1 hx
  · rintro (⟨h1, h2⟩ | ⟨rfl, t, h2, h3⟩)
    · rw [h2]
      exact .itself hx h1 hx h1
    · rw [h3]
      exact .identity rfl rfl h2

/-- A concrete symbol of a known alphabet stands for itself only. -/
theorem label_of_known {g : Graph} (hr : Recognizer g) {k l : List (Sym × Sym)} {w : Int} (hk : Cost g k w)
    (hf : List.Forall₂ (St g.alphabet) k l) {x : Sym} (hx : (x, x) ∈ l) (ha : x ∈ g.alphabet) : (x, x) ∈ k := by
  obtain ⟨p, hp, hs⟩ := forall₂_right hf hx
  obtain ⟨h1, h2⟩ := recognizer_label hr (hk.labels p hp)
  obtain ⟨y, z⟩ := p
  dsimp only at h1 h2
  subst h1
  rcases (st_diag h2).mp hs with ⟨_, e⟩ | ⟨_, t, ho, e⟩
  · rw [e]; exact hp
  · have := congrArg Prod.fst e
    dsimp only at this
    exact absurd ha (this ▸ ho.2)

/-- C79.  The shuffle of two automata accepts every interleaving of a string of the first and a string of the second, with the
added weights.  It accepts nothing else, if the symbols of the string are either unknown to both automata or in some string that
one of them accepts.  Missing: strings with other symbols, see `C79_alphabet_violated`; alphabets with symbols that begin with
`@1` or `@2`. -/
theorem C79_shuffle_partial {B : Backend} (hB : B.Ok) (g h : Graph) (hg : Usual g) (hh : Usual h) (rg : Recognizer g)
    (rh : Recognizer h) (tg : Untagged g) (th : Untagged h) :
    ∃ r, shuffle B g h = .ok r ∧ Usual r ∧
      (∀ a b l w₁ w₂, Means g a w₁ → Means h b w₂ → Interleaved a b l → Means r l (w₁ + w₂)) ∧
      ∀ l w, (∀ p ∈ l, p.1 ∈ g.alphabet ∨ p.1 ∈ h.alphabet → Occurs g p.1 ∨ Occurs h p.1) →
        (Means r l w ↔ ∃ a b w₁ w₂, Means g a w₁ ∧ Means h b w₂ ∧ Interleaved a b l ∧ w₁ + w₂ ≤ w) := by
  obtain ⟨g₁, h₁, r, e1, e2, ur, alr, cr⟩ := shuffle_core hB hg hh rg rh tg th
  obtain ⟨g₁', h₁', e3, u1, u2, al1, al2, d1, d2⟩ := harmonize_shape hg hh
  rw [e1] at e3
  obtain ⟨rfl, rfl⟩ : g₁ = g₁' ∧ h₁ = h₁' := by
    injection e3 with e3
    exact ⟨congrArg Prod.fst e3, congrArg Prod.snd e3⟩
  obtain ⟨r1, r2⟩ := harmonize_recognizer hg hh rg rh e1
  have m1 : ∀ l w, Means g₁ l w ↔ Means g l w := fun l w => by simp only [Means, d1]
  have m2 : ∀ l w, Means h₁ l w ↔ Means h l w := fun l w => by simp only [Means, d2]
  have same : ∀ x, x ∈ h₁.alphabet ↔ x ∈ g₁.alphabet := fun x => by rw [al1, al2]
  have small : ∀ x ∈ r.alphabet, x ∈ g₁.alphabet := by
    intro x hx
    rcases alr x hx with (rfl | rfl | rfl) | h1 | h1
    · exact u1.good.alpha.eps
    · exact u1.good.alpha.unk
    · exact u1.good.alpha.idn
    · exact (label_alpha u1.good h1).1
    · exact (same x).mp (label_alpha u2.good h1).1
  have comp : ∀ a b l w₁ w₂, Means g a w₁ → Means h b w₂ → Interleaved a b l → Means r l (w₁ + w₂) := by
    intro a b l w₁ w₂ ha hb hi
    obtain ⟨ka, ca, fa⟩ := means_iff.mp ((m1 _ _).mpr ha)
    obtain ⟨kb, cb, fb⟩ := means_iff.mp ((m2 _ _).mpr hb)
    obtain ⟨k, hk, fk⟩ := hi.forall₂_up fa (forall₂_congr same fb)
    have hc : Cost r k (w₁ + w₂) := (cr _ _).mpr ⟨ka, kb, w₁, w₂, ca, cb, hk, Int.le_refl _⟩
    refine means_iff.mpr ⟨k, hc, fk.imp fun p q hpq => ?_⟩
    exact st_of_outside (fun x _ ho => ⟨ho.1, fun hx => ho.2 (small x hx)⟩) hpq
  refine ⟨r, e2, ur, comp, fun l w hl => ⟨fun hm => ?_, ?_⟩⟩
  · obtain ⟨k, hc, fk⟩ := means_iff.mp hm
    obtain ⟨ka, kb, w₁, w₂, ca, cb, hi, hw⟩ := (cr _ _).mp hc
    -- every known symbol that occurs is in the alphabet of the result
    have known : ∀ x, x ∈ g.alphabet ∨ x ∈ h.alphabet → Occurs g x ∨ Occurs h x → x ∈ r.alphabet := by
      rintro x hx (⟨la, v, hm, hin⟩ | ⟨lb, v, hm, hin⟩)
      · obtain ⟨k', c', f'⟩ := means_iff.mp ((m1 _ _).mpr hm)
        have := label_of_known r1 c' f' hin ((al1 x).mpr hx)
        obtain ⟨j, hj, _⟩ := (show ∃ j, Interleaved k' kb j ∧ True from by
          clear hin this c' f'
          induction k' with
          | nil =>
            clear cb hi
            induction kb with
            | nil => exact ⟨[], .nil, trivial⟩
            | cons q t ih => obtain ⟨j, h1, _⟩ := ih; exact ⟨q :: j, .right h1, trivial⟩
          | cons q t ih => obtain ⟨j, h1, _⟩ := ih; exact ⟨q :: j, .left h1, trivial⟩)
        have hc' : Cost r j (v + w₂) := (cr _ _).mpr ⟨k', kb, v, w₂, c', cb, hj, Int.le_refl _⟩
        exact (ur.cost_alpha hc' _ (hj.mem.mpr (.inl this))).1
      · obtain ⟨k', c', f'⟩ := means_iff.mp ((m2 _ _).mpr hm)
        have := label_of_known r2 c' f' hin ((al2 x).mpr hx)
        obtain ⟨j, hj, _⟩ := (show ∃ j, Interleaved ka k' j ∧ True from by
          clear hin this c' f'
          clear ca hi
          induction ka with
          | nil =>
            induction k' with
            | nil => exact ⟨[], .nil, trivial⟩
            | cons q t ih => obtain ⟨j, h1, _⟩ := ih; exact ⟨q :: j, .right h1, trivial⟩
          | cons q t ih => obtain ⟨j, h1, _⟩ := ih; exact ⟨q :: j, .left h1, trivial⟩)
        have hc' : Cost r j (w₁ + v) := (cr _ _).mpr ⟨ka, k', w₁, v, ca, c', hj, Int.le_refl _⟩
        exact (ur.cost_alpha hc' _ (hj.mem.mpr (.inr this))).1
    have fk' : List.Forall₂ (St g₁.alphabet) k l := by
      refine forall₂_imp_mem fk fun p q hq hpq => st_of_outside (fun x hx ho => ⟨ho.1, fun hxa => ?_⟩) hpq
      have hxq : x = q.1 := by
        rcases hx with hx | hx
        · exact hx
        · -- the two sides are equal
          have hpk : ∃ p' ∈ k, St r.alphabet p' q := forall₂_right fk hq
          obtain ⟨p', hp', hs⟩ := hpk
          have hlab : p'.1 = p'.2 ∧ p'.1 ≠ unknown := by
            rcases hi.mem.mp hp' with h1 | h1
            · exact recognizer_label r1 (ca.labels _ h1)
            · exact recognizer_label r2 (cb.labels _ h1)
          obtain ⟨y, z⟩ := p'
          dsimp only at hlab
          obtain ⟨rfl, hu⟩ := hlab
          rcases (st_diag hu).mp hs with ⟨_, e⟩ | ⟨_, t, _, e⟩
          · rw [hx, e]
          · rw [hx, e]
      have hxa := (al1 x).mp hxa
      rw [hxq] at hxa ho
      exact ho.2 (known _ hxa (hl q hq hxa))
    obtain ⟨a, b, fa, fb, hi'⟩ := hi.forall₂ fk'
    exact ⟨a, b, w₁, w₂, (m1 _ _).mp (means_iff.mpr ⟨ka, ca, fa⟩),
      (m2 _ _).mp (means_iff.mpr ⟨kb, cb, forall₂_congr (fun x => (same x).symm) fb⟩), hi', hw⟩
  · rintro ⟨a, b, w₁, w₂, ha, hb, hi, hw⟩
    exact (comp a b l w₁ w₂ ha hb hi).mono hw

/-- A transition with two different symbols makes shuffle throw, whatever the back-end does. -/
theorem C79_throws (B : Backend) (g h : Graph) (hg : Usual g) (hh : Usual h)
    (hd : ∃ p, (HasLabel g p ∨ HasLabel h p) ∧ p.1 ≠ p.2) : shuffle B g h = .throws := by
  obtain ⟨g₁, h₁, m₁, m₂, e1, r1, r2, _⟩ := harmonize_expand hg hh
  obtain ⟨g₁', h₁', e1', u1, u2, _⟩ := harmonize_shape hg hh
  rw [e1] at e1'
  obtain ⟨rfl, rfl⟩ : g₁ = g₁' ∧ h₁ = h₁' := by
    injection e1' with e
    exact ⟨congrArg Prod.fst e, congrArg Prod.snd e⟩
  obtain ⟨a, ea, _⟩ := code_spec u1.good.wf encodeFirst fun p _ _ _ _ => tagFirst.nonempty p.1
  obtain ⟨b, eb, _⟩ := code_spec u2.good.wf encodeSecond fun p _ _ _ _ => tagSecond.nonempty p.1
  have hn : (notAutomaton g₁ || notAutomaton h₁) = true := by
    rw [Bool.or_eq_true]
    obtain ⟨_, ⟨s, x, hx, rfl⟩ | ⟨s, x, hx, rfl⟩, hne⟩ := hd
    · exact .inl ((notAutomaton_iff _).mpr ⟨s, x, by rw [r1]; exact expand_keeps hx, hne⟩)
    · exact .inr ((notAutomaton_iff _).mpr ⟨s, x, by rw [r2]; exact expand_keeps hx, hne⟩)
  unfold shuffle encodeGraph
  rw [convert_usual hg, convert_usual hh, e1]
  simp only [Outcome.bind]
  rw [ea, eb]
  simp only [hn, if_true]

/-! ## Where the code does something else -/

/-- Any symbol but `a`. -/
def notA : Graph := (single identity identity).addSymbol ['a']

theorem notA_spec : Usual notA ∧ (∀ x, x ∈ notA.alphabet ↔ x ∈ (single identity identity).alphabet ∨ x = ['a']) ∧
    ∀ l w, Means notA l w ↔ Means (single identity identity) l w ∧ ∀ p ∈ l, p.1 ≠ ['a'] ∧ p.2 ≠ ['a'] :=
  addSymbol_means (single_usual (by decide) (by decide) Iff.rfl) (by decide) (by decide)

theorem notA_recognizer : Recognizer notA := by
  intro s a ha
  have := (single_arcs identity identity s a).mp ha
  rw [this.2]
  exact ⟨rfl, by decide⟩

theorem untagged_of {g : Graph} (h : g.alphabet.all (fun x => !(['@', '1'].isPrefixOf x || ['@', '2'].isPrefixOf x)) = true) : Untagged g := by
  intro x hx y
  have := List.all_eq_true.mp h x hx
  rw [Bool.not_eq_true', Bool.or_eq_false_iff] at this
  constructor
  · rintro rfl
    simp at this
  · rintro rfl
    simp at this

theorem b_spec : Usual (single ['b'] ['b']) ∧ Recognizer (single ['b'] ['b']) ∧ Untagged (single ['b'] ['b']) ∧
    ∀ l w, Means (single ['b'] ['b']) l w ↔ 0 ≤ w ∧ l = [(['b'], ['b'])] := by
  refine ⟨single_usual (by decide) (by decide) Iff.rfl, ?_, untagged_of (by decide), symbol_means (by decide) (by decide) (by decide)⟩
  intro s a ha
  rw [((single_arcs _ _ s a).mp ha).2]
  exact ⟨rfl, by decide⟩

theorem notA_c : Means notA [(['c'], ['c'])] 0 := by
  refine (notA_spec.2.2 _ _).mpr ⟨(single_means (by decide) _ _).mpr ⟨Int.le_refl _, _, rfl, ?_⟩, by decide⟩
  exact .identity rfl rfl ⟨⟨by decide, by decide, by decide, by decide, by decide⟩, by decide⟩

/-- No transition has the symbol `a` when `notA` and the automaton of `b` have been harmonized. -/
theorem notA_harmonized : (match harmonize notA (single ['b'] ['b']) with
    | .ok p => p.1.states.all (fun l => l.all fun a => decide (a.label ≠ (['a'], ['a']))) &&
        p.2.states.all (fun l => l.all fun a => decide (a.label ≠ (['a'], ['a'])))
    | _ => false) = true := by decide +kernel

theorem no_label {g : Graph} {p : Sym × Sym} (h : g.states.all (fun l => l.all fun a => decide (a.label ≠ p)) = true) : ¬ HasLabel g p := by
  rintro ⟨s, a, ha, hp⟩
  have hm := (mem_flatten_states g a).mpr ⟨s, ha⟩
  obtain ⟨l, hl, hal⟩ := List.mem_flatten.mp hm
  have := List.all_eq_true.mp (List.all_eq_true.mp h l hl) a hal
  exact (of_decide_eq_true this) hp

/-- C79 (disagreement): a symbol of the alphabets that is on no transition of the result is forgotten, so that the identity symbol
stands for it.  The shuffle of "any symbol but `a`" with `b` accepts the string `ab`. -/
theorem C79_alphabet_violated {B : Backend} (hB : B.Ok) : ∃ r, shuffle B notA (single ['b'] ['b']) = .ok r ∧
    Means r [(['a'], ['a']), (['b'], ['b'])] 0 ∧
    ¬ ∃ a b w₁ w₂, Means notA a w₁ ∧ Means (single ['b'] ['b']) b w₂ ∧ Interleaved a b [(['a'], ['a']), (['b'], ['b'])] := by
  obtain ⟨ub, rb, tb, mb⟩ := b_spec
  obtain ⟨g₁, h₁, r, e1, e2, ur, alr, cr⟩ := shuffle_core hB notA_spec.1 ub notA_recognizer rb (untagged_of (by decide)) tb
  obtain ⟨g₁', h₁', e3, u1, u2, al1, al2, d1, d2⟩ := harmonize_shape notA_spec.1 ub
  rw [e1] at e3
  obtain ⟨rfl, rfl⟩ : g₁ = g₁' ∧ h₁ = h₁' := by
    injection e3 with e3
    exact ⟨congrArg Prod.fst e3, congrArg Prod.snd e3⟩
  have hno := notA_harmonized
  rw [e1] at hno
  dsimp only at hno
  rw [Bool.and_eq_true] at hno
  have ha : ['a'] ∉ r.alphabet := by
    intro hx
    rcases alr _ hx with h | h | h
    · exact absurd h (by decide)
    · exact no_label hno.1 h
    · exact no_label hno.2 h
  have m1 : Means g₁ [(['c'], ['c'])] 0 := by
    have := notA_c
    simp only [Means, ← d1] at this
    exact this
  have m2 : Means h₁ [(['b'], ['b'])] 0 := by
    have := (mb _ 0).mpr ⟨Int.le_refl _, rfl⟩
    simp only [Means, ← d2] at this
    exact this
  have oc : Ordinary ['c'] := ⟨by decide, by decide, by decide, by decide, by decide⟩
  have oa : Ordinary ['a'] := ⟨by decide, by decide, by decide, by decide, by decide⟩
  have hc : ['c'] ∉ g₁.alphabet := by
    rw [al1]
    decide
  have hbm : ['b'] ∈ h₁.alphabet := by
    rw [al2]
    decide
  have c1 : Cost g₁ [(identity, identity)] 0 := by
    refine cost_of_means u1 (fun x => Iff.rfl) ?_ (.cons (.identity rfl rfl ⟨oc, hc⟩) .nil) m1
    intro p hp
    rw [List.mem_singleton.mp hp]
    exact ⟨u1.good.alpha.idn, u1.good.alpha.idn⟩
  have c2 : Cost h₁ [(['b'], ['b'])] 0 := by
    refine cost_of_means u2 (fun x => Iff.rfl) ?_ (.cons (.itself (by decide) (by decide) (by decide) (by decide)) .nil) m2
    intro p hp
    rw [List.mem_singleton.mp hp]
    exact ⟨hbm, hbm⟩
  refine ⟨r, e2, means_iff.mpr ⟨[(identity, identity), (['b'], ['b'])], (cr _ _).mpr ⟨_, _, 0, 0, c1, c2, .left (.right .nil), by decide⟩,
    .cons (.identity rfl rfl ⟨oa, ha⟩) (.cons (.itself (by decide) (by decide) (by decide) (by decide)) .nil)⟩, ?_⟩
  rintro ⟨a, b, w₁, w₂, h1, h2, h3⟩
  have hm : ((['a'], ['a']) : Sym × Sym) ∈ a ∨ ((['a'], ['a']) : Sym × Sym) ∈ b := h3.mem.mp (by simp)
  rcases hm with hm | hm
  · exact (((notA_spec.2.2 _ _).mp h1).2 _ hm).1 rfl
  · rw [((mb _ _).mp h2).2] at hm
    exact absurd hm (by decide)

theorem shuffle_ok {B : Backend} (hB : B.Ok) {g h g₁ h₁ a b a' b' x y : Graph} (e1 : harmonize (convert g) (convert h) = .ok (g₁, h₁))
    (e2 : encodeGraph encodeFirst g₁ = .ok a) (e3 : encodeGraph encodeSecond h₁ = .ok b)
    (n1 : notAutomaton g₁ = false) (n2 : notAutomaton h₁ = false)
    (e4 : a.insertFreely (pairsOf b.alphabet) 0 = .ok a') (e5 : b.insertFreely (pairsOf a.alphabet) 0 = .ok b')
    (e6 : harmonize (prepare (convert a') (convert b') true).1 (prepare (convert a') (convert b') true).2 = .ok (x, y))
    (gx : Good x) (gy : Good y) (hs : Same x y) (hl : ∀ p, HasLabel x p → p.1 = unknown) : ∃ r, shuffle B g h = .ok r := by
  have res := hB.intersect x y gx gy hs
  have ro := hB.optimize _ res.good
  have wfo : WF (convert (B.optimize (B.intersect x y))) := ⟨ro.good.wf.nonempty, ro.good.wf.targets, ro.good.wf.finals⟩
  obtain ⟨d, ed, _⟩ := code_spec wfo decode fun p hp _ h0 h1 => by
    have hp := ((larger_convert (B.optimize (B.intersect x y))).label p).mp hp
    rcases ro.labels p hp with hp | rfl
    · rcases res.labels p hp with hp | rfl
      · exact absurd (hl p hp) h1
      · exact absurd rfl h0
    · exact absurd rfl h0
  have ei : intersect B (convert a') (convert b') = .ok (B.intersect x y) := by
    unfold intersect apply
    dsimp only
    rw [e6]
    rfl
  unfold shuffle
  rw [e1]
  simp only [Outcome.bind]
  rw [e2, e3]
  simp only [n1, n2, Bool.or_self, Bool.false_eq_true, if_false]
  rw [e4, e5]
  simp only [ei, ed]
  exact ⟨_, rfl⟩

/-- Any pair of two different symbols. -/
abbrev different : Graph := single unknown unknown

/-- The empty string. -/
abbrev nothing : Graph := epsilonGraph

/-- C79 (disagreement): a transition where the unknown symbol is on both sides stands for pairs of different symbols, but it is
taken for an automaton: there is no exception. -/
theorem C79_unknown_violated {B : Backend} (hB : B.Ok) : (∃ r, shuffle B different nothing = .ok r) ∧
    Relates different [['a']] [['b']] 0 := by
  have us : Usual different := single_usual (by decide) (by decide) Iff.rfl
  constructor
  · refine shuffle_ok hB (g₁ := different) (h₁ := nothing) (a := { different with alphabet := [] }) (b := { nothing with alphabet := [] })
      (a' := { different with alphabet := [] }) (b' := { nothing with alphabet := [] })
      (x := { different with alphabet := [identity, unknown, epsilon] }) (y := { nothing with alphabet := [identity, unknown, epsilon] })
      (by decide +kernel) (by decide +kernel) (by decide +kernel) (by decide +kernel) (by decide +kernel) (by decide +kernel)
      (by decide +kernel) (by decide +kernel) ?_ ?_ (fun _ => Iff.rfl) ?_
    · exact Larger.good (g := different) ⟨rfl, rfl, by decide⟩ us.good
    · exact Larger.good (g := nothing) ⟨rfl, rfl, by decide⟩ epsilonGraph_usual.good
    · rintro p ⟨s, a, ha, rfl⟩
      exact congrArg Arc.inp ((single_arcs _ _ s a).mp ha).2
  · refine ⟨[(['a'], ['b'])], (single_means (by decide) _ _).mpr ⟨Int.le_refl _, _, rfl, ?_⟩, by decide, by decide⟩
    exact .both rfl rfl ⟨⟨by decide, by decide, by decide, by decide, by decide⟩, by decide⟩
      ⟨⟨by decide, by decide, by decide, by decide, by decide⟩, by decide⟩ (by decide)

/-! ## Concrete cases -/

/-- The theorem applies to "any symbol but `a`" and `b`: the shuffle accepts `cb` and `bc`. -/
example : ∃ r, shuffle reference notA (single ['b'] ['b']) = .ok r ∧ Means r [(['c'], ['c']), (['b'], ['b'])] 0 ∧
    Means r [(['b'], ['b']), (['c'], ['c'])] 0 := by
  obtain ⟨ub, rb, tb, mb⟩ := b_spec
  obtain ⟨r, h1, _, h2, _⟩ := C79_shuffle_partial reference_ok notA (single ['b'] ['b']) notA_spec.1 ub notA_recognizer rb
    (untagged_of (by decide)) tb
  have m2 := (mb _ 0).mpr ⟨Int.le_refl _, rfl⟩
  exact ⟨r, h1, h2 _ _ _ 0 0 notA_c m2 (.left (.right .nil)), h2 _ _ _ 0 0 notA_c m2 (.right (.left .nil))⟩

/-- `b` and `b`: the shuffle does not accept `b` alone. -/
example : ∃ r, shuffle reference (single ['b'] ['b']) (single ['b'] ['b']) = .ok r ∧ ∀ w, ¬ Means r [(['b'], ['b'])] w := by
  obtain ⟨ub, rb, tb, mb⟩ := b_spec
  obtain ⟨r, h1, _, _, h2⟩ := C79_shuffle_partial reference_ok (single ['b'] ['b']) (single ['b'] ['b']) ub ub rb rb tb tb
  refine ⟨r, h1, fun w hw => ?_⟩
  have hocc : Occurs (single ['b'] ['b']) ['b'] := ⟨_, 0, (mb _ 0).mpr ⟨Int.le_refl _, rfl⟩, by simp⟩
  obtain ⟨a, b, w₁, w₂, ha, hb, hi, _⟩ := (h2 _ w (by
    intro p hp _
    rw [List.mem_singleton.mp hp]
    exact .inl hocc)).mp hw
  rw [((mb _ _).mp ha).2, ((mb _ _).mp hb).2] at hi
  cases hi with
  | left h => cases h
  | right h => cases h

/-- `a:b` and `b`. -/
example : shuffle reference (single ['a'] ['b']) (single ['b'] ['b']) = .throws := by
  refine C79_throws reference _ _ (single_usual (by decide) (by decide) (by decide)) b_spec.1 ⟨(['a'], ['b']), .inl ⟨0, ⟨1, ['a'], ['b'], 0⟩, ?_, rfl⟩, by decide⟩
  exact (single_arcs _ _ 0 _).mpr ⟨rfl, rfl⟩

end Hfst.Trans
