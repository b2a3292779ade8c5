import Verif.Props.RulesBasic

/-!
# C76: two-level rules
-/
namespace Hfst.Trans
open Hfst.Basic Hfst.Lexc

theorem inputToAny_mem {ms al : List (Sym × Sym)} {p : Sym × Sym} :
    p ∈ inputToAny ms al ↔ p ∈ al ∧ ∃ m ∈ ms, m.1 = p.1 := by
  unfold inputToAny
  rw [List.mem_filter]
  simp only [List.any_eq_true, decide_eq_true_eq]
  exact and_congr_right fun _ => ⟨fun ⟨m, h1, h2⟩ => ⟨m, h1, h2.symm⟩, fun ⟨m, h1, h2⟩ => ⟨m, h1, h2.symm⟩⟩

theorem over_append {al a b : List (Sym × Sym)} : Over al (a ++ b) ↔ Over al a ∧ Over al b := by
  constructor
  · exact fun h => ⟨fun p hp => h p (by simp [hp]), fun p hp => h p (by simp [hp])⟩
  · rintro ⟨h1, h2⟩ p hp
    rcases List.mem_append.mp hp with hp | hp
    · exact h1 p hp
    · exact h2 p hp

theorem over_any {al l : List (Sym × Sym)} : (∃ v : Int, Over al l ∧ 0 ≤ v) ↔ Over al l :=
  ⟨fun ⟨_, h, _⟩ => h, fun h => ⟨0, h, Int.le_refl _⟩⟩

theorem endsIn_iff {al : List (Sym × Sym)} {c : Graph} {x : List (Sym × Sym)} (h : Over al x) :
    (∃ v, Cat (fun l w => Over al l ∧ 0 ≤ w) (Means c) x v) ↔ EndsIn c x := by
  rw [cat_any]
  simp only [over_any]
  constructor
  · rintro ⟨a, b, e, _, h2⟩; exact ⟨a, b, e, h2⟩
  · rintro ⟨a, b, rfl, h2⟩; exact ⟨a, b, rfl, (over_append.mp h).1, h2⟩

theorem startsIn_iff {al : List (Sym × Sym)} {c : Graph} {x : List (Sym × Sym)} (h : Over al x) :
    (∃ v, Cat (Means c) (fun l w => Over al l ∧ 0 ≤ w) x v) ↔ StartsIn c x := by
  rw [cat_any]
  simp only [over_any]
  constructor
  · rintro ⟨a, b, e, h2, _⟩; exact ⟨a, b, e, h2⟩
  · rintro ⟨a, b, rfl, h2⟩; exact ⟨a, b, rfl, h2, (over_append.mp h).2⟩

theorem over_nil {al : List (Sym × Sym)} : Over al [] := fun p hp => absurd hp (by simp)

section
variable {B : Backend} (hB : B.Ok)
include hB

/-- The transducer in the middle of `two_level_if`. -/
theorem center_spec {ms al : List (Sym × Sym)} (lm : Literal ms) (la : Literal al)
    (hc : ms = [] ∨ ∃ a ∈ al, ∃ m ∈ ms, m.1 = a.1) :
    ∃ c u m n r, pairSet (inputToAny ms al) = .ok c ∧ pairSet al true = .ok u ∧ pairSet ms = .ok m ∧
      subtract B u m = .ok n ∧ intersect B c n = .ok r ∧ Den u (fun l w => Over al l ∧ 0 ≤ w) ∧ ∃ C, Den r C ∧
      ∀ l, (∃ v, C l v) ↔ ∃ p, l = [p] ∧ p ∈ al ∧ (∃ m ∈ ms, m.1 = p.1) ∧ p ∉ ms := by
  obtain ⟨u, hu, du⟩ := pairSet_cyclic la
  rcases List.eq_nil_or_concat ms with rfl | hms
  · obtain ⟨m, hm, dm⟩ := pairSet_nil
    have : inputToAny [] al = [] := by
      unfold inputToAny
      simp
    rw [this]
    obtain ⟨n, hn, dn⟩ := du.subtract hB dm
    obtain ⟨r, hr, dr⟩ := dm.intersect hB dn
    refine ⟨m, u, m, n, r, hm, hu, hm, hn, hr, du, _, dr, fun l => ?_⟩
    constructor
    · rintro ⟨_, _, _, ⟨rfl, _⟩, ⟨_, h⟩, _⟩
      exact absurd ⟨0, rfl, Int.le_refl _⟩ h
    · rintro ⟨p, _, _, ⟨m, h, _⟩, _⟩
      cases h
  · have hne : ms ≠ [] := by
      obtain ⟨_, _, rfl⟩ := hms
      simp
    obtain ⟨m, hm, dm⟩ := pairSet_one lm hne
    have li : Literal (inputToAny ms al) := fun p hp => la p (inputToAny_mem.mp hp).1
    obtain ⟨c, hc, dc⟩ := pairSet_one li (by
      rcases hc with e | ⟨a, ha, m, hm, e⟩
      · exact absurd e hne
      · intro h0
        have := inputToAny_mem.mpr ⟨ha, m, hm, e⟩
        rw [h0] at this
        cases this)
    obtain ⟨n, hn, dn⟩ := du.subtract hB dm
    obtain ⟨r, hr, dr⟩ := dc.intersect hB dn
    refine ⟨c, u, m, n, r, hc, hu, hm, hn, hr, du, _, dr, fun l => ?_⟩
    constructor
    · rintro ⟨_, _, _, ⟨⟨p, hp, rfl⟩, _⟩, ⟨_, h⟩, _⟩
      obtain ⟨h1, h2⟩ := inputToAny_mem.mp hp
      exact ⟨p, rfl, h1, h2, fun hm => h ⟨0, ⟨p, hm, rfl⟩, Int.le_refl _⟩⟩
    · rintro ⟨p, rfl, h1, h2, h3⟩
      refine ⟨0, 0, 0, ⟨⟨p, inputToAny_mem.mpr ⟨h1, h2⟩, rfl⟩, Int.le_refl _⟩, ⟨⟨?_, Int.le_refl _⟩, ?_⟩, Int.le_refl _⟩
      · intro q hq
        rw [List.mem_singleton.mp hq]
        exact h1
      · rintro ⟨_, ⟨q, hq, e⟩, _⟩
        cases e
        exact h3 hq

/-- C76, part: `two_level_if`.  The rule accepts the sequences of pairs of the alphabet in which a symbol that has a mapping is
mapped that way wherever the left context ends and the right context starts, all with weight 0.  The contexts can have unknown
and identity symbols.  Missing: a rule where the alphabet has no pair with the input symbol of a mapping (see
`C76_if_violated`); unknown and identity symbols in the alphabet or in the mappings. -/
theorem C76_if_partial (left right : Graph) (ms al : List (Sym × Sym)) (ul : Usual left) (pl : Plain left) (ur : Usual right)
    (pr : Plain right) (lm : Literal ms) (la : Literal al) (hc : ms = [] ∨ ∃ a ∈ al, ∃ m ∈ ms, m.1 = a.1) :
    ∃ r, twoLevelIf B left right ms al = .ok r ∧ Usual r ∧ Plain r ∧
      ∀ l w, Means r l w ↔ 0 ≤ w ∧ Over al l ∧ MappedThere left right ms l := by
  obtain ⟨c, u, m, n, r, e1, e2, e3, e4, e5, du, C, dr, hC⟩ := center_spec hB lm la hc
  obtain ⟨a, e6, da⟩ := du.concat hB (.self ul pl)
  obtain ⟨b, e7, db⟩ := (Den.self ur pr).concat hB du
  obtain ⟨i, e8, di⟩ := da.concat hB dr
  obtain ⟨j, e9, dj⟩ := di.concat hB db
  obtain ⟨k, e10, dk⟩ := du.subtract hB dj
  refine ⟨k, ?_, dk.usual, dk.plain, fun l w => ?_⟩
  · unfold twoLevelIf
    simp only [e1, e2, e3, e4, e5, e6, e7, e8, e9, Outcome.bind]
    exact e10
  rw [dk.means, cat_any]
  simp only [cat_any (L := Cat _ _) (M := C), hC]
  constructor
  · rintro ⟨⟨ho, hw⟩, hn⟩
    refine ⟨hw, ho, ?_⟩
    rintro x p y rfl hx hy hm
    obtain ⟨o1, o2⟩ := over_append.mp ho
    have o3 : Over al y := fun q hq => o2 q (by simp [hq])
    refine Classical.byContradiction fun hp => hn ⟨x ++ [p], y, by simp, ⟨x, [p], rfl, (endsIn_iff o1).mpr hx, p, rfl,
      o2 p (by simp), hm, hp⟩, (startsIn_iff o3).mpr hy⟩
  · rintro ⟨hw, ho, hm⟩
    refine ⟨⟨ho, hw⟩, ?_⟩
    rintro ⟨_, y, rfl, ⟨x, _, rfl, hx, p, rfl, _, h3, h4⟩, hy⟩
    obtain ⟨o1, o2⟩ := over_append.mp ho
    exact h4 (hm x p y (by simp) ((endsIn_iff (over_append.mp o1).1).mp hx) ((startsIn_iff o2).mp hy) h3)

/-- C76, part: `two_level_only_if`.  The rule accepts the sequences of pairs of the alphabet in which the mappings occur only
after the left context and before the right context.  Missing: an empty set of mappings (see `C76_only_if_violated`); unknown and
identity symbols in the alphabet or in the mappings. -/
theorem C76_only_if_partial (left right : Graph) (ms al : List (Sym × Sym)) (ul : Usual left) (pl : Plain left)
    (ur : Usual right) (pr : Plain right) (lm : Literal ms) (la : Literal al) (hne : ms ≠ []) :
    ∃ r, twoLevelOnlyIf B left right ms al = .ok r ∧ Usual r ∧ Plain r ∧
      ∀ l w, Means r l w ↔ 0 ≤ w ∧ Over al l ∧ MappedOnlyThere left right ms l := by
  obtain ⟨c, e1, dc⟩ := pairSet_one lm hne
  obtain ⟨u, e2, du⟩ := pairSet_cyclic la
  obtain ⟨a, e3, da⟩ := du.concat hB (.self ul pl)
  obtain ⟨an, e4, dan⟩ := du.subtract hB da
  obtain ⟨b, e5, db⟩ := (Den.self ur pr).concat hB du
  obtain ⟨bn, e6, dbn⟩ := du.subtract hB db
  obtain ⟨r1, e7, d1⟩ := dan.concat hB dc
  obtain ⟨r2, e8, d2⟩ := d1.concat hB du
  obtain ⟨r3, e9, d3⟩ := du.concat hB dc
  obtain ⟨r4, e10, d4⟩ := d3.concat hB dbn
  obtain ⟨r5, e11, d5⟩ := d2.disjunct hB d4
  obtain ⟨r6, e12, d6⟩ := du.subtract hB d5
  refine ⟨r6, ?_, d6.usual, d6.plain, fun l w => ?_⟩
  · unfold twoLevelOnlyIf
    simp only [e1, e2, e3, e4, e5, e6, e7, e8, e9, e10, e11, Outcome.bind]
    exact e12
  rw [d6.means]
  have hand : ∀ {P Q : Prop}, (∃ v : Int, (P ∧ 0 ≤ v) ∧ Q) ↔ P ∧ Q :=
    fun {P Q} => ⟨fun ⟨_, h⟩ => ⟨h.1.1, h.2⟩, fun h => ⟨0, ⟨h.1, Int.le_refl _⟩, h.2⟩⟩
  have hand' : ∀ {P : Prop}, (∃ v : Int, P ∧ 0 ≤ v) ↔ P :=
    fun {P} => ⟨fun ⟨_, h⟩ => h.1, fun h => ⟨0, h, Int.le_refl _⟩⟩
  rw [exists_or, cat_any, cat_any]
  simp only [cat_any (L := fun l w => (Over al l ∧ 0 ≤ w) ∧ _), cat_any (L := fun l w => Over al l ∧ 0 ≤ w), hand, hand']
  constructor
  · rintro ⟨⟨ho, hw⟩, hn⟩
    refine ⟨hw, ho, ?_⟩
    rintro x p y rfl hp
    obtain ⟨o1, o2⟩ := over_append.mp ho
    have o3 : Over al y := fun q hq => o2 q (by simp [hq])
    refine ⟨Classical.byContradiction fun hx => hn (.inl ⟨x ++ [p], y, by simp, ⟨x, [p], rfl, ⟨o1, ?_⟩, p, hp, rfl⟩, o3⟩),
      Classical.byContradiction fun hy => hn (.inr ⟨x ++ [p], y, by simp, ⟨x, [p], rfl, o1, p, hp, rfl⟩, o3, ?_⟩)⟩
    · rintro ⟨a, b, rfl, _, h⟩
      exact hx ⟨a, b, rfl, h⟩
    · exact fun h => hy ((startsIn_iff o3).mp h)
  · rintro ⟨hw, ho, hm⟩
    refine ⟨⟨ho, hw⟩, ?_⟩
    rintro (⟨_, y, rfl, ⟨x, _, rfl, ⟨o1, hx⟩, p, hp, rfl⟩, o2⟩ | ⟨_, y, rfl, ⟨x, _, rfl, o1, p, hp, rfl⟩, o2, hy⟩)
    · obtain ⟨a, b, e, h⟩ := (hm x p y (by simp) hp).1
      exact hx ⟨a, b, e, (over_append.mp (e ▸ o1)).1, h⟩
    · exact hy ((startsIn_iff o2).mpr (hm x p y (by simp) hp).2)

/-- C76, part: `two_level_if_and_only_if`.  Missing: as in the two other parts. -/
theorem C76_iff_partial (left right : Graph) (ms al : List (Sym × Sym)) (ul : Usual left) (pl : Plain left) (ur : Usual right)
    (pr : Plain right) (lm : Literal ms) (la : Literal al) (hc : ∃ a ∈ al, ∃ m ∈ ms, m.1 = a.1) :
    ∃ r, twoLevelIff B left right ms al = .ok r ∧ Usual r ∧ Plain r ∧
      ∀ l w, Means r l w ↔ 0 ≤ w ∧ Over al l ∧ MappedThere left right ms l ∧ MappedOnlyThere left right ms l := by
  have hne : ms ≠ [] := by
    obtain ⟨_, _, m, hm, _⟩ := hc
    exact fun e => by rw [e] at hm; cases hm
  obtain ⟨a, e1, ua, pa, ma⟩ := C76_if_partial hB left right ms al ul pl ur pr lm la (.inr hc)
  obtain ⟨b, e2, ub, pb, mb⟩ := C76_only_if_partial hB left right ms al ul pl ur pr lm la hne
  obtain ⟨r, e3, dr⟩ := (⟨ua, pa, ma⟩ : Den a _).intersect hB ⟨ub, pb, mb⟩
  refine ⟨r, ?_, dr.usual, dr.plain, fun l w => ?_⟩
  · unfold twoLevelIff
    simp only [e1, e2, Outcome.bind]
    exact e3
  rw [dr.means]
  constructor
  · rintro ⟨w₁, w₂, ⟨h1, h2, h3⟩, ⟨h4, _, h6⟩, hw⟩
    exact ⟨by omega, h2, h3, h6⟩
  · rintro ⟨hw, h2, h3, h6⟩
    exact ⟨0, 0, ⟨Int.le_refl _, h2, h3⟩, ⟨Int.le_refl _, h2, h6⟩, hw⟩

omit hB in
theorem letter_den {x : Sym} (h1 : x ≠ []) (h2 : isSpecial x = false) : Den (single x x) fun l w => 0 ≤ w ∧ l = [(x, x)] := by
  have hn : ∀ y, isSpecial y = true → x ≠ y := by
    rintro y hy rfl
    rw [h2] at hy
    cases hy
  refine ⟨single_usual h1 h1 Iff.rfl, fun y hy hm => ?_, symbol_means (hn _ (by decide)) (hn _ (by decide)) (hn _ (by decide))⟩
  rcases (single_alphabet ..).mp hm with e | e | e | e | e
  · exact .inl e
  · exact .inr (.inl e)
  · exact .inr (.inr e)
  · exact absurd e.symm (hn y hy)
  · exact absurd e.symm (hn y hy)

/-- If the alphabet has no pair with the input symbol of a mapping, `two_level_if` forbids the right context directly after the
left context. -/
theorem if_empty_center (left right : Graph) (ms al : List (Sym × Sym)) (ul : Usual left) (pl : Plain left) (ur : Usual right)
    (pr : Plain right) (lm : Literal ms) (la : Literal al) (hne : ms ≠ []) (hi : inputToAny ms al = []) :
    ∃ r, twoLevelIf B left right ms al = .ok r ∧
      ∀ a b v v' w, Means left a v → Means right b v' → ¬ Means r (a ++ b) w := by
  obtain ⟨u, e2, du⟩ := pairSet_cyclic la
  obtain ⟨m, e3, dm⟩ := pairSet_one lm hne
  obtain ⟨c, e1, dc⟩ := pairSet_nil
  obtain ⟨n, e4, dn⟩ := du.subtract hB dm
  obtain ⟨r, e5, dr⟩ := dc.intersect hB dn
  obtain ⟨a, e6, da⟩ := du.concat hB (.self ul pl)
  obtain ⟨b, e7, db⟩ := (Den.self ur pr).concat hB du
  obtain ⟨i, e8, di⟩ := da.concat hB dr
  obtain ⟨j, e9, dj⟩ := di.concat hB db
  obtain ⟨k, e10, dk⟩ := du.subtract hB dj
  refine ⟨k, ?_, fun x y v v' w hx hy hw => ?_⟩
  · unfold twoLevelIf
    rw [hi]
    simp only [e1, e2, e3, e4, e5, e6, e7, e8, e9, Outcome.bind]
    exact e10
  · have h := ((dk.means _ _).mp hw).2
    rw [cat_any] at h
    simp only [cat_any (L := Cat _ _) (M := fun _ _ => ∃ _ _, _), cat_any (L := Means right), cat_any (M := Means left)] at h
    refine h ⟨x, y, rfl, ⟨x, [], by simp, ⟨[], x, rfl, ⟨0, over_nil, by decide⟩, v, hx⟩, 0, 0, 0, ⟨rfl, by decide⟩,
      ⟨⟨over_nil, by decide⟩, ?_⟩, by decide⟩, y, [], by simp, ⟨v', hy⟩, 0, over_nil, by decide⟩
    rintro ⟨_, ⟨p, _, e⟩, _⟩
    cases e

/-- C76, violated: if the alphabet has no pair with the input symbol of a mapping, `two_level_if` rejects sequences where nothing
has to be mapped: `a:b` between `c` and `e` forbids `c e`. -/
theorem C76_if_violated : ∃ r,
    twoLevelIf B (single ['c'] ['c']) (single ['e'] ['e']) [(['a'], ['b'])] [(['c'], ['c']), (['e'], ['e'])] = .ok r ∧
    MappedThere (single ['c'] ['c']) (single ['e'] ['e']) [(['a'], ['b'])] [(['c'], ['c']), (['e'], ['e'])] ∧
    ∀ w, ¬ Means r [(['c'], ['c']), (['e'], ['e'])] w := by
  have dl : Den (single ['c'] ['c']) _ := letter_den (by decide) (by decide)
  have dr : Den (single ['e'] ['e']) _ := letter_den (by decide) (by decide)
  obtain ⟨r, h1, h2⟩ := if_empty_center hB (single ['c'] ['c']) (single ['e'] ['e']) [(['a'], ['b'])]
    [(['c'], ['c']), (['e'], ['e'])] dl.usual dl.plain dr.usual dr.plain (by unfold Literal; decide) (by unfold Literal; decide)
    (by simp) (by decide)
  refine ⟨r, h1, ?_, fun w => h2 [(['c'], ['c'])] [(['e'], ['e'])] 0 0 w ((dl.means _ _).mpr ⟨by decide, rfl⟩)
    ((dr.means _ _).mpr ⟨by decide, rfl⟩)⟩
  rintro x p y e _ _ ⟨m, hm, hp⟩
  have h1 : p ∈ [((['c'], ['c']) : Sym × Sym), (['e'], ['e'])] := by rw [e]; simp
  simp only [List.mem_cons, List.not_mem_nil, or_false] at h1 hm
  subst hm
  rcases h1 with rfl | rfl <;> simp at hp

/-- C76, violated: with no mappings at all, `two_level_only_if` rejects the empty sequence, although no mapping occurs there, if the
left context is not empty. -/
theorem C76_only_if_violated (left right : Graph) (al : List (Sym × Sym)) (ul : Usual left) (pl : Plain left)
    (ur : Usual right) (pr : Plain right) (la : Literal al) (hl : ∀ v, ¬ Means left [] v) :
    ∃ r, twoLevelOnlyIf B left right [] al = .ok r ∧ MappedOnlyThere left right [] [] ∧ ∀ w, ¬ Means r [] w := by
  obtain ⟨c, e1, dc⟩ := pairSet_nil
  obtain ⟨u, e2, du⟩ := pairSet_cyclic la
  obtain ⟨a, e3, da⟩ := du.concat hB (.self ul pl)
  obtain ⟨an, e4, dan⟩ := du.subtract hB da
  obtain ⟨b, e5, db⟩ := (Den.self ur pr).concat hB du
  obtain ⟨bn, e6, dbn⟩ := du.subtract hB db
  obtain ⟨r1, e7, d1⟩ := dan.concat hB dc
  obtain ⟨r2, e8, d2⟩ := d1.concat hB du
  obtain ⟨r3, e9, d3⟩ := du.concat hB dc
  obtain ⟨r4, e10, d4⟩ := d3.concat hB dbn
  obtain ⟨r5, e11, d5⟩ := d2.disjunct hB d4
  obtain ⟨r6, e12, d6⟩ := du.subtract hB d5
  refine ⟨r6, ?_, ?_, fun w hw => ?_⟩
  · unfold twoLevelOnlyIf
    simp only [e1, e2, e3, e4, e5, e6, e7, e8, e9, e10, e11, Outcome.bind]
    exact e12
  · intro x p y e
    simp at e
  · have h := ((d6.means _ _).mp hw).2
    refine h ⟨0, .inl ⟨[], [], 0, 0, ⟨[], [], 0, 0, ⟨⟨over_nil, by decide⟩, ?_⟩, ⟨rfl, by decide⟩, rfl, by decide⟩,
      ⟨over_nil, by decide⟩, rfl, by decide⟩⟩
    rintro ⟨_, l₁, l₂, _, w₂, _, h2, e, _⟩
    have : l₂ = [] := (List.append_eq_nil_iff.mp e.symm).2
    exact hl w₂ (this ▸ h2)

end

/-- C76: an empty string as a symbol of the alphabet or of a mapping is an error. -/
theorem C76_throws (B : Backend) (left right : Graph) (ms al : List (Sym × Sym)) (hal : ∃ p ∈ al, p.1 = [] ∨ p.2 = []) :
    twoLevelIf B left right ms al = .throws ∧ twoLevelIff B left right ms al = .throws ∧
      twoLevelOnlyIf B left right ms al = .throws := by
  have key : ∀ {ps : List (Sym × Sym)} {c : Bool}, (∃ p ∈ ps, p.1 = [] ∨ p.2 = []) → pairSet ps c = .throws := by
    rintro ps c ⟨p, hp, e⟩
    unfold pairSet
    rw [if_pos]
    simp only [List.any_eq_true, Bool.or_eq_true, List.isEmpty_iff]
    exact ⟨p, hp, e⟩
  have hnot : ∀ {ps : List (Sym × Sym)} {c : Bool}, pairSet ps c = .throws ∨ ∃ g, pairSet ps c = .ok g := by
    intro ps c
    unfold pairSet
    split
    · exact .inl rfl
    · exact .inr ⟨_, rfl⟩
  have h1 : twoLevelIf B left right ms al = .throws := by
    unfold twoLevelIf
    rw [key (ps := al) hal]
    rcases hnot (ps := inputToAny ms al) (c := false) with e | ⟨g, e⟩ <;> rw [e] <;> rfl
  refine ⟨h1, ?_, ?_⟩
  · unfold twoLevelIff
    rw [h1]
    rfl
  · unfold twoLevelOnlyIf
    rw [key (ps := al) hal]
    rcases hnot (ps := ms) (c := false) with e | ⟨g, e⟩ <;> rw [e] <;> rfl

/-! ## An example -/

/-- The rule `a:b <=> c _ e` over the alphabet `a`, `a:b`, `c`, `e`, with the reference back-end: `c a:b e` is accepted, `c a e` is
not, and `a:b` alone is not. -/
example : ∃ r, twoLevelIff reference (single ['c'] ['c']) (single ['e'] ['e']) [(['a'], ['b'])]
      [(['a'], ['a']), (['a'], ['b']), (['c'], ['c']), (['e'], ['e'])] = .ok r ∧
    Means r [(['c'], ['c']), (['a'], ['b']), (['e'], ['e'])] 0 ∧
    (∀ w, ¬ Means r [(['c'], ['c']), (['a'], ['a']), (['e'], ['e'])] w) ∧ ∀ w, ¬ Means r [(['a'], ['b'])] w := by
  have dc : Den (single ['c'] ['c']) _ := letter_den (by decide) (by decide)
  have de : Den (single ['e'] ['e']) _ := letter_den (by decide) (by decide)
  have ml := dc.means
  have mr := de.means
  have hc : Means (single ['c'] ['c']) [(['c'], ['c'])] 0 := (ml _ _).mpr ⟨by decide, rfl⟩
  have he : Means (single ['e'] ['e']) [(['e'], ['e'])] 0 := (mr _ _).mpr ⟨by decide, rfl⟩
  obtain ⟨r, e, _, _, h⟩ := C76_iff_partial reference_ok (single ['c'] ['c']) (single ['e'] ['e']) [(['a'], ['b'])]
    [(['a'], ['a']), (['a'], ['b']), (['c'], ['c']), (['e'], ['e'])] dc.usual dc.plain de.usual de.plain
    (by unfold Literal; decide) (by unfold Literal; decide) (by decide)
  refine ⟨r, e, (h _ _).mpr ⟨by decide, by unfold Over; decide, ?_, ?_⟩, fun w hw => ?_, fun w hw => ?_⟩
  · rintro x p y e _ _ ⟨m, hm, hp⟩
    have h1 : p ∈ [((['c'], ['c']) : Sym × Sym), (['a'], ['b']), (['e'], ['e'])] := by rw [e]; simp
    simp only [List.mem_cons, List.not_mem_nil, or_false] at h1 hm ⊢
    subst hm
    rcases h1 with rfl | rfl | rfl
    · exact absurd hp (by decide)
    · rfl
    · exact absurd hp (by decide)
  · rintro x p y e hp
    rw [List.mem_singleton.mp hp] at e
    have : x = [(['c'], ['c'])] ∧ y = [(['e'], ['e'])] := by
      rcases x with _ | ⟨x1, _ | ⟨x2, _ | ⟨x3, x⟩⟩⟩
      · simp at e
      · simp at e; exact ⟨by rw [e.1], e.2.symm⟩
      · simp at e
      · simp at e
    rw [this.1, this.2]
    exact ⟨⟨[], _, rfl, 0, hc⟩, _, [], rfl, 0, he⟩
  · have h5 : ((['a'], ['a']) : Sym × Sym) ∈ [((['a'], ['b']) : Sym × Sym)] :=
      ((h _ _).mp hw).2.2.1 [(['c'], ['c'])] (['a'], ['a']) [(['e'], ['e'])] rfl ⟨[], _, rfl, 0, hc⟩ ⟨_, [], rfl, 0, he⟩
        ⟨(['a'], ['b']), List.mem_singleton.mpr rfl, rfl⟩
    exact absurd h5 (by decide)
  · obtain ⟨⟨a, b, e, v, hb⟩, _⟩ := ((h _ _).mp hw).2.2.2 [] (['a'], ['b']) [] rfl (by simp)
    rw [((ml _ _).mp hb).2] at e
    simp at e

end Hfst.Trans
