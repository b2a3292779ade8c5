import Verif.Props.TransducerOps

/-!
# C73: complement and repetition
-/
namespace Hfst.Trans
open Hfst.Basic Hfst.Lexc

/-! ## Transducers for one pair -/

theorem Plain.same {g h : Graph} (hg : Plain g) (hh : Plain h) (ug : Good g) (uh : Good h) : SameSpecials g h := by
  have key : ∀ {g h : Graph}, Plain g → Good h → ∀ x, isSpecial x = true → x ∈ g.alphabet → x ∈ h.alphabet := by
    intro g h hg uh x hx hm
    rcases hg x hx hm with rfl | rfl | rfl
    · exact uh.alpha.eps
    · exact uh.alpha.unk
    · exact uh.alpha.idn
  exact fun x hx => ⟨key hg uh x hx, key hh ug x hx⟩

theorem single_alphabet (x y z : Sym) : z ∈ (single x y).alphabet ↔ z = epsilon ∨ z = unknown ∨ z = identity ∨ z = x ∨ z = y := by
  have : (single x y).alphabet = setInsert (setInsert [epsilon, unknown, identity] x) y := rfl
  rw [this, Hfst.Basic.mem_setInsert, Hfst.Basic.mem_setInsert]
  simp only [List.mem_cons, List.not_mem_nil, or_false]
  constructor
  · rintro (h | h | h | h | h)
    · exact .inr (.inr (.inr (.inr h)))
    · exact .inr (.inr (.inr (.inl h)))
    · exact .inl h
    · exact .inr (.inl h)
    · exact .inr (.inr (.inl h))
  · rintro (h | h | h | h | h)
    · exact .inr (.inr (.inl h))
    · exact .inr (.inr (.inr (.inl h)))
    · exact .inr (.inr (.inr (.inr h)))
    · exact .inr (.inl h)
    · exact .inl h

theorem single_arcs (x y : Sym) (s : Nat) (a : Arc) : a ∈ (single x y).arcs s ↔ s = 0 ∧ a = ⟨1, x, y, 0⟩ := by
  have : (single x y).states = [[⟨1, x, y, 0⟩], []] := rfl
  unfold Graph.arcs
  rw [this]
  match s with
  | 0 => simp
  | 1 => simp
  | s + 2 => simp

theorem single_final (x y : Sym) (s : Nat) (w : Int) : (single x y).final s = some w ↔ s = 1 ∧ w = 0 := by
  have hf : FinalMap (single x y) := by
    have : (single x y).finals = [(1, 0)] := rfl
    unfold FinalMap
    rw [this]
    simp
  rw [hf.iff]
  have : (single x y).finals = [(1, 0)] := rfl
  rw [this]
  simp

theorem single_good (x y : Sym) : Good (single x y) := by
  refine ⟨⟨by simp [show (single x y).states = [[⟨1, x, y, 0⟩], []] from rfl], ?_, ?_⟩, ⟨?_, ?_, ?_, ?_⟩, ?_⟩
  · intro s a ha
    rw [((single_arcs x y s a).mp ha).2]
    simp [show (single x y).states = [[⟨1, x, y, 0⟩], []] from rfl]
  · intro s w hw
    rw [((single_final x y s w).mp hw).1]
    simp [show (single x y).states = [[⟨1, x, y, 0⟩], []] from rfl]
  · intro s a ha
    rw [((single_arcs x y s a).mp ha).2, single_alphabet, single_alphabet]
    simp
  · rw [single_alphabet]; simp
  · rw [single_alphabet]; simp
  · rw [single_alphabet]; simp
  · simp [FinalMap, show (single x y).finals = [(1, 0)] from rfl]

theorem single_usual {x y : Sym} (hx : x ≠ []) (hy : y ≠ []) (h : x = identity ↔ y = identity) : Usual (single x y) := by
  refine ⟨single_good x y, ?_, ?_⟩
  · intro s a ha
    rw [((single_arcs x y s a).mp ha).2]
    exact h
  · rw [single_alphabet]
    rintro (e | e | e | e | e)
    · exact absurd e (by decide)
    · exact absurd e (by decide)
    · exact absurd e (by decide)
    · exact hx e.symm
    · exact hy e.symm

theorem single_label {x y : Sym} {p : Sym × Sym} : HasLabel (single x y) p ↔ p = (x, y) := by
  constructor
  · rintro ⟨s, a, ha, rfl⟩
    rw [((single_arcs x y s a).mp ha).2]
    rfl
  · rintro rfl
    exact ⟨0, ⟨1, x, y, 0⟩, (single_arcs ..).mpr ⟨rfl, rfl⟩, rfl⟩

theorem single_accepts (x y : Sym) (l : List (Sym × Sym)) (w : Int) : Accepts (single x y) l w ↔ l = [(x, y)] ∧ w = 0 := by
  constructor
  · rintro ⟨q, v, f, hp, hf, rfl⟩
    obtain ⟨rfl, rfl⟩ := (single_final ..).mp hf
    generalize hs : 0 = s at hp
    generalize hq : 1 = q at hp
    cases hp with
    | nil => omega
    | cons ha hp =>
      obtain ⟨rfl, rfl⟩ := (single_arcs ..).mp ha
      cases hp with
      | nil => exact ⟨rfl, rfl⟩
      | cons ha _ => exact absurd ((single_arcs ..).mp ha).1 (by simp)
  · rintro ⟨rfl, rfl⟩
    refine ⟨1, 0, 0, ?_, (single_final ..).mpr ⟨rfl, rfl⟩, rfl⟩
    exact Path.cons (a := ⟨1, x, y, 0⟩) ((single_arcs ..).mpr ⟨rfl, rfl⟩) (.nil 1)

theorem single_cost (x y : Sym) (l : List (Sym × Sym)) (w : Int) :
    Cost (single x y) l w ↔ l = strip [(x, y)] ∧ 0 ≤ w := by
  constructor
  · rintro ⟨l', w', ha, rfl, hw⟩
    obtain ⟨rfl, rfl⟩ := (single_accepts ..).mp ha
    exact ⟨rfl, hw⟩
  · rintro ⟨rfl, hw⟩
    exact ⟨_, 0, (single_accepts ..).mpr ⟨rfl, rfl⟩, rfl, hw⟩

theorem single_means {x y : Sym} (h : (x, y) ≠ (epsilon, epsilon)) (l : List (Sym × Sym)) (w : Int) :
    Means (single x y) l w ↔ 0 ≤ w ∧ ∃ q, l = [q] ∧ St [epsilon, unknown, identity, x, y] (x, y) q := by
  have hal : ∀ z, z ∈ (single x y).alphabet ↔ z ∈ [epsilon, unknown, identity, x, y] := by
    intro z
    rw [single_alphabet]
    simp
  rw [means_iff]
  constructor
  · rintro ⟨k, hk, hf⟩
    obtain ⟨rfl, hw⟩ := (single_cost ..).mp hk
    rw [strip_cons h] at hf
    cases hf with
    | cons h1 h2 =>
      cases h2
      exact ⟨hw, _, rfl, h1.congr hal⟩
  · rintro ⟨hw, q, rfl, hq⟩
    refine ⟨_, (single_cost ..).mpr ⟨rfl, hw⟩, ?_⟩
    rw [strip_cons h]
    exact .cons (hq.congr fun z => (hal z).symm) .nil

theorem identity_means (l : List (Sym × Sym)) (w : Int) :
    Means (single identity identity) l w ↔ 0 ≤ w ∧ ∃ x, l = [(x, x)] ∧ Ordinary x := by
  rw [single_means (by decide)]
  refine and_congr_right fun _ => ?_
  constructor
  · rintro ⟨⟨x, y⟩, rfl, hq⟩
    rcases st_iff.mp hq with ⟨_, _, rfl, ho⟩ | ⟨h, _⟩
    · exact ⟨x, rfl, ho.1⟩
    · exact absurd rfl h
  · rintro ⟨x, rfl, hx⟩
    refine ⟨_, rfl, st_iff.mpr (.inl ⟨rfl, rfl, rfl, hx, ?_⟩)⟩
    obtain ⟨h1, h2, h3, _⟩ := hx
    simp [h1, h2, h3]

theorem symbol_means {x : Sym} (h1 : x ≠ epsilon) (h2 : x ≠ unknown) (h3 : x ≠ identity) (l : List (Sym × Sym)) (w : Int) :
    Means (single x x) l w ↔ 0 ≤ w ∧ l = [(x, x)] := by
  rw [single_means (fun e => h1 (congrArg Prod.fst e))]
  refine and_congr_right fun _ => ?_
  constructor
  · rintro ⟨⟨a, b⟩, rfl, hq⟩
    rcases st_iff.mp hq with ⟨e, _⟩ | ⟨_, _, ⟨e, _⟩ | ⟨_, rfl⟩, ⟨e', _⟩ | ⟨_, rfl⟩, _⟩
    · exact absurd e h3
    · exact absurd e h2
    · exact absurd e h2
    · exact absurd e' h2
    · rfl
  · rintro rfl
    exact ⟨_, rfl, st_iff.mpr (.inr ⟨h3, h3, .inr ⟨h2, rfl⟩, .inr ⟨h2, rfl⟩, fun e => absurd e h2⟩)⟩

theorem diacritic_ne {x : Sym} (h : Flags.isDiacritic x = true) : x ≠ epsilon ∧ x ≠ unknown ∧ x ≠ identity ∧ x ≠ [] := by
  refine ⟨?_, ?_, ?_, ?_⟩ <;> (rintro rfl; revert h; decide)

/-! ## Automata -/

/-- All transitions have the same symbol on both sides, and it is not unknown. -/
def Pure (g : Graph) : Prop := ∀ p, HasLabel g p → p.1 = p.2 ∧ p.1 ≠ unknown

theorem isAutomaton_iff {g : Graph} : isAutomaton g = true ↔ Pure g := by
  unfold isAutomaton
  constructor
  · intro h p hp
    obtain ⟨s, a, ha, rfl⟩ := hp
    rw [List.all_eq_true] at h
    unfold Graph.arcs at ha
    cases hs : g.states[s]? with
    | none => rw [hs] at ha; exact absurd ha (by simp)
    | some l =>
      rw [hs] at ha
      have := h l (List.mem_of_getElem? hs)
      rw [List.all_eq_true] at this
      simpa [Arc.label] using this a ha
  · intro h
    rw [List.all_eq_true]
    intro l hl
    rw [List.all_eq_true]
    intro a ha
    obtain ⟨s, hs'⟩ := List.getElem?_of_mem hl
    have : a ∈ g.arcs s := by rw [Graph.arcs, hs']; exact ha
    have := h a.label ⟨s, a, this, rfl⟩
    simpa [Arc.label] using this

theorem Result.pure {g r : Graph} {P : Sym × Sym → Prop} {L : List (Sym × Sym) → Int → Prop} (h : Result g r P L)
    (hP : ∀ p, P p → p.1 = p.2 ∧ p.1 ≠ unknown) : Pure r := by
  intro p hp
  rcases h.labels p hp with hp | rfl
  · exact hP p hp
  · exact ⟨rfl, epsilon_ne_unknown⟩

theorem harmonizeIdentity_pure {g k : Graph} {m : List Sym} (h : harmonizeIdentity g m = .ok k) (hg : Pure g)
    (hm : unknown ∉ m) : Pure k := by
  unfold harmonizeIdentity at h
  split_ifs at h
  · cases h; exact hg
  · cases h
    rintro p ⟨s, a, ha, rfl⟩
    rw [Graph.arcs_map g (fun l => l ++ l.flatMap (identityAdds m)) (by simp) s g.alphabet, List.mem_append,
      List.mem_flatMap] at ha
    rcases ha with ha | ⟨b, _, ha⟩
    · exact hg a.label ⟨s, a, ha, rfl⟩
    · obtain ⟨_, x, hx, rfl⟩ := mem_identityAdds.mp ha
      exact ⟨rfl, fun e => hm (by rw [← e]; exact hx)⟩

theorem harmonizeUnknown_pure {g k : Graph} {m : List Sym} (h : harmonizeUnknown g m = .ok k) (hg : Pure g) : Pure k := by
  unfold harmonizeUnknown at h
  split_ifs at h
  · cases h; exact hg
  · cases h
    rintro p ⟨s, a, ha, rfl⟩
    rw [Graph.arcs_map g (fun l => l ++ l.flatMap (unknownAdds m)) (by simp) s g.alphabet, List.mem_append,
      List.mem_flatMap] at ha
    rcases ha with ha | ⟨b, hb, ha⟩
    · exact hg a.label ⟨s, a, ha, rfl⟩
    · have := hg b.label ⟨s, b, hb, rfl⟩
      have e1 : b.inp ≠ unknown := this.2
      have e2 : b.out ≠ unknown := fun e => this.2 (this.1.trans e)
      rcases mem_unknownAdds.mp ha with ⟨e, _⟩ | ⟨e, _⟩ | ⟨e, _⟩
      · exact absurd e e1
      · exact absurd e e2
      · exact absurd e e1

theorem harmonize_pure {g h g' h' : Graph} (hg : Usual g) (he : harmonize g h = .ok (g', h')) :
    (Pure g → Pure g') ∧ (Pure h → Pure h') := by
  unfold harmonize at he
  dsimp only at he
  have n1 : unknown ∉ setErase (setErase (setDiff (removeFlagsSet g.alphabet) (removeFlagsSet h.alphabet)) identity) unknown := by
    intro hx
    rw [mem_setErase] at hx
    exact hx.2 rfl
  have n2 : unknown ∉ setDiff (removeFlagsSet h.alphabet) (removeFlagsSet g.alphabet) := by
    intro hx
    rw [mem_setDiff, mem_removeFlagsSet, mem_removeFlagsSet] at hx
    exact hx.2 ⟨hg.good.alpha.unk, hx.1.2⟩
  generalize setErase (setErase (setDiff (removeFlagsSet g.alphabet) (removeFlagsSet h.alphabet)) identity) unknown = m1
    at he n1
  generalize setDiff (removeFlagsSet h.alphabet) (removeFlagsSet g.alphabet) = m2 at he n2
  cases e1 : harmonizeIdentity g m2 with
  | throws => rw [e1] at he; cases he
  | undefined => rw [e1] at he; cases he
  | ok k1 =>
    cases e2 : harmonizeIdentity h m1 with
    | throws => rw [e1, e2] at he; cases he
    | undefined => rw [e1, e2] at he; cases he
    | ok k2 =>
      rw [e1, e2] at he
      simp only [Outcome.bind] at he
      cases e3 : harmonizeUnknown k1 m2 with
      | throws => rw [e3] at he; cases he
      | undefined => rw [e3] at he; cases he
      | ok k3 =>
        cases e4 : harmonizeUnknown k2 m1 with
        | throws => rw [e3, e4] at he; cases he
        | undefined => rw [e3, e4] at he; cases he
        | ok k4 =>
          rw [e3, e4] at he
          simp only [Outcome.ok.injEq, Prod.mk.injEq] at he
          obtain ⟨rfl, rfl⟩ := he
          constructor
          · intro h p hp
            exact harmonizeUnknown_pure e3 (harmonizeIdentity_pure e1 h n2) p hp
          · intro h p hp
            exact harmonizeUnknown_pure e4 (harmonizeIdentity_pure e2 h n1) p hp

theorem single_pure {x : Sym} (hx : x ≠ unknown) : Pure (single x x) := by
  intro p hp
  rw [single_label.mp hp]
  exact ⟨rfl, hx⟩

/-! ## Complement -/

section
variable {B : Backend} (hB : B.Ok)
include hB

theorem disjunct_pure {g h r : Graph} (hg : Usual g) (hh : Usual h) (hs : SameSpecials g h) (pg : Pure g) (ph : Pure h)
    (he : disjunct B g h = .ok r) : Pure r := by
  obtain ⟨g', h', e, ug, uh, hsame, _⟩ := prepared hg hh hs
  unfold disjunct apply at he
  dsimp only at he
  rw [e] at he
  cases he
  rw [prepare_same hs] at e
  obtain ⟨p1, p2⟩ := harmonize_pure hg e
  exact (hB.disjunct g' h' ug.good uh.good hsame).pure fun p hp => hp.elim (p1 pg p) (p2 ph p)

theorem subtract_pure {g h r : Graph} (hg : Usual g) (hh : Usual h) (hs : SameSpecials g h) (pg : Pure g)
    (he : subtract B g h = .ok r) : Pure r := by
  obtain ⟨g', h', e, ug, uh, hsame, _⟩ := prepared hg hh hs
  unfold subtract apply at he
  dsimp only at he
  rw [e] at he
  cases he
  rw [prepare_same hs] at e
  obtain ⟨p1, p2⟩ := harmonize_pure hg e
  exact (hB.subtract g' h' ug.good uh.good hsame).pure (p1 pg)

theorem addFlags_spec {g₀ : Graph} (hp₀ : Plain g₀) (xs : List Sym) (hxs : ∀ x ∈ xs, Flags.isDiacritic x = true ∧ x ∈ g₀.alphabet)
    (g : Graph) (hg : Usual g) (hp : Plain g) (hpure : Pure g) :
    ∃ r, addFlags B xs g = .ok r ∧ Usual r ∧ Plain r ∧ Pure r ∧ (∀ x, x ∈ r.alphabet ↔ x ∈ g.alphabet ∨ x ∈ xs) ∧
      ∀ l w, Means r l w ↔ Means g l w ∨ 0 ≤ w ∧ ∃ x ∈ xs, l = [(x, x)] := by
  induction xs generalizing g with
  | nil => exact ⟨g, rfl, hg, hp, hpure, by simp, by simp⟩
  | cons x xs ih =>
    obtain ⟨hd, hx⟩ := hxs x (by simp)
    obtain ⟨e1, e2, e3, e4⟩ := diacritic_ne hd
    have ps : Plain (single x x) := by
      intro z hz hm
      rcases (single_alphabet ..).mp hm with e | e | e | e | e
      · exact .inl e
      · exact .inr (.inl e)
      · exact .inr (.inr e)
      · exact hp₀ z hz (e ▸ hx)
      · exact hp₀ z hz (e ▸ hx)
    obtain ⟨r₁, h1, h2, h3, h4⟩ := C73_disjunct hB g (single x x) hg (single_usual e4 e4 Iff.rfl)
      (hp.same ps hg.good (single_good ..))
    have pr : Plain r₁ := fun z hz hm => ((h3 z).mp hm).elim (hp z hz) (ps z hz)
    obtain ⟨r, h5, h6, h7, h7', h8, h9⟩ := ih (fun z hz => hxs z (by simp [hz])) r₁ h2 pr
      (disjunct_pure hB hg (single_usual e4 e4 Iff.rfl) (hp.same ps hg.good (single_good ..)) hpure (single_pure e2) h1)
    refine ⟨r, ?_, h6, h7, h7', ?_, ?_⟩
    · unfold addFlags
      rw [h1]
      exact h5
    · intro z
      rw [h8, h3, single_alphabet]
      have := hg.good.alpha
      simp only [List.mem_cons]
      constructor
      · rintro ((h | rfl | rfl | rfl | h | h) | h)
        · exact .inl h
        · exact .inl this.eps
        · exact .inl this.unk
        · exact .inl this.idn
        · exact .inr (.inl h)
        · exact .inr (.inl h)
        · exact .inr (.inr h)
      · rintro (h | h | h)
        · exact .inl (.inl h)
        · exact .inl (.inr (by simp [h]))
        · exact .inr h
    · intro l w
      rw [h9, h4, symbol_means e1 e2 e3]
      simp only [List.mem_cons, exists_eq_or_imp]
      constructor
      · rintro ((h | ⟨h, h'⟩) | ⟨h, h'⟩)
        · exact .inl h
        · exact .inr ⟨h, .inl h'⟩
        · exact .inr ⟨h, .inr h'⟩
      · rintro (h | ⟨h, h' | h'⟩)
        · exact .inl (.inl h)
        · exact .inl (.inr ⟨h, h'⟩)
        · exact .inr ⟨h, h'⟩

omit hB in
theorem star_pairs {L : List (Sym × Sym) → Int → Prop} {P : Sym → Prop}
    (hL : ∀ l w, L l w ↔ 0 ≤ w ∧ ∃ x, l = [(x, x)] ∧ P x) (l : List (Sym × Sym)) (w : Int) :
    Star L l w ↔ 0 ≤ w ∧ ∀ p ∈ l, p.1 = p.2 ∧ P p.1 := by
  constructor
  · intro h
    induction h with
    | nil hw => exact ⟨hw, by simp⟩
    | cons h _ ih =>
      obtain ⟨h1, x, rfl, hx⟩ := (hL _ _).mp h
      refine ⟨by omega, ?_⟩
      intro p hp
      rw [List.singleton_append, List.mem_cons] at hp
      rcases hp with rfl | hp
      · exact ⟨rfl, hx⟩
      · exact ih.2 p hp
  · rintro ⟨hw, h⟩
    induction l with
    | nil => exact .nil hw
    | cons p l ih =>
      obtain ⟨x, y⟩ := p
      obtain ⟨e, hx⟩ := h (x, y) (by simp)
      dsimp only at e hx
      subst e
      have := Star.cons ((hL [(x, x)] 0).mpr ⟨Int.le_refl _, x, rfl, hx⟩) (ih fun p hp => h p (by simp [hp]))
      rwa [Int.zero_add] at this

/-- C73, complement of an automaton: the strings of ordinary symbols, and flag diacritics it knows, that it does not
accept, without weight. -/
theorem C73_negate (g : Graph) (hg : Usual g) (hp : Plain g) (ha : isAutomaton g = true) :
    ∃ r, negate B g = .ok r ∧ Usual r ∧ isAutomaton r = true ∧ (∀ x, x ∈ r.alphabet ↔ x ∈ g.alphabet) ∧
      ∀ l w, Means r l w ↔ 0 ≤ w ∧
        (∀ p ∈ l, p.1 = p.2 ∧ (Ordinary p.1 ∨ Flags.isDiacritic p.1 = true ∧ p.1 ∈ g.alphabet)) ∧ ∀ v, ¬ Means g l v := by
  have hbase : ∀ x, x ∈ (single identity identity).alphabet ↔ x = epsilon ∨ x = unknown ∨ x = identity := by
    intro x
    rw [single_alphabet]
    constructor
    · rintro (h | h | h | h | h)
      · exact .inl h
      · exact .inr (.inl h)
      · exact .inr (.inr h)
      · exact .inr (.inr h)
      · exact .inr (.inr h)
    · rintro (h | h | h)
      · exact .inl h
      · exact .inr (.inl h)
      · exact .inr (.inr (.inl h))
  have hfl : ∀ x, x ∈ missingFlags (single identity identity) g ↔ Flags.isDiacritic x = true ∧ x ∈ g.alphabet := by
    intro x
    unfold missingFlags
    rw [List.mem_filter]
    constructor
    · rintro ⟨h1, h2⟩
      exact ⟨(Bool.and_eq_true_iff.mp h2).2, h1⟩
    · rintro ⟨h1, h2⟩
      obtain ⟨e1, e2, e3, _⟩ := diacritic_ne h1
      refine ⟨h2, Bool.and_eq_true_iff.mpr ⟨decide_eq_true fun h => ?_, h1⟩⟩
      rcases (hbase x).mp h with e | e | e
      · exact e1 e
      · exact e2 e
      · exact e3 e
  generalize hf : missingFlags (single identity identity) g = flags at hfl
  have ui : Usual (single identity identity) := single_usual (by decide) (by decide) Iff.rfl
  have hlarge := larger_addSymbols (single identity identity) flags
  have hal : ∀ x, x ∈ ((single identity identity).addSymbols flags).alphabet ↔
      x ∈ (single identity identity).alphabet ∨ x ∈ flags := fun x => mem_alphabet_addSymbols
  have u0 : Usual ((single identity identity).addSymbols flags) := by
    refine ⟨hlarge.good ui.good, paired_of_labels fun p hp => label_paired ui.paired ((hlarge.label p).mp hp), ?_⟩
    rw [hal]
    rintro (h | h)
    · exact ui.nonempty h
    · exact (diacritic_ne ((hfl _).mp h).1).2.2.2 rfl
  have p0 : Plain ((single identity identity).addSymbols flags) := by
    intro x hx hm
    rcases (hal x).mp hm with h | h
    · exact (hbase x).mp h
    · exact hp x hx ((hfl x).mp h).2
  have m0 : ∀ l w, Means ((single identity identity).addSymbols flags) l w ↔ 0 ≤ w ∧ ∃ x, l = [(x, x)] ∧ Ordinary x := by
    intro l w
    rw [← identity_means, means_iff, means_iff]
    have hc : ∀ k, Cost ((single identity identity).addSymbols flags) k w ↔ Cost (single identity identity) k w := by
      intro k
      unfold Cost
      simp only [hlarge.accepts]
    constructor
    · rintro ⟨k, h1, h2⟩
      refine ⟨k, (hc k).mp h1, h2.imp fun p q h => ?_⟩
      unfold St at h ⊢
      cases h with
      | itself a b c d => exact .itself a b c d
      | identity a b c => exact .identity a b ⟨c.1, fun h => c.2 ((hal _).mpr (.inl h))⟩
      | input a b c d => exact .input a b c ⟨d.1, fun h => d.2 ((hal _).mpr (.inl h))⟩
      | output a b c d => exact .output a b c ⟨d.1, fun h => d.2 ((hal _).mpr (.inl h))⟩
      | both a b c d e =>
        exact .both a b ⟨c.1, fun h => c.2 ((hal _).mpr (.inl h))⟩ ⟨d.1, fun h => d.2 ((hal _).mpr (.inl h))⟩ e
    · have hout : ∀ {x}, Outside (single identity identity).alphabet x →
          Outside ((single identity identity).addSymbols flags).alphabet x := by
        intro x hx
        refine ⟨hx.1, fun h => ?_⟩
        rcases (hal x).mp h with h | h
        · exact hx.2 h
        · have := ((hfl x).mp h).1
          rw [hx.1.2.2.2.1] at this
          cases this
      rintro ⟨k, h1, h2⟩
      refine ⟨k, (hc k).mpr h1, h2.imp fun p q h => ?_⟩
      unfold St at h ⊢
      cases h with
      | itself a b c d => exact .itself a b c d
      | identity a b c => exact .identity a b (hout c)
      | input a b c d => exact .input a b c (hout d)
      | output a b c d => exact .output a b c (hout d)
      | both a b c d e => exact .both a b (hout c) (hout d) e
  have q0 : Pure ((single identity identity).addSymbols flags) := fun p hp =>
    single_pure (fun e => unknown_ne_identity e.symm) p ((hlarge.label p).mp hp)
  obtain ⟨s, h1, h2, h3, h3', h4, h5⟩ := addFlags_spec hB hp flags (fun x => (hfl x).mp) _ u0 p0 q0
  obtain ⟨h6, h7, h8⟩ := C73_star hB s h2
  obtain ⟨h9, h10, h11⟩ := optimize_means hB h6
  have hsame : ∀ x, x ∈ (B.optimize (B.star s)).alphabet ↔ x ∈ s.alphabet := fun x => (h10 x).trans (h7 x)
  have hspec := Plain.same (fun x hx hm => h3 x hx ((hsame x).mp hm)) hp h9.good hg.good
  obtain ⟨r, r1, r2, r3, r4⟩ := C73_subtract hB (B.optimize (B.star s)) g h9 hg hspec
  refine ⟨r, ?_, r2, isAutomaton_iff.mpr (subtract_pure hB h9 hg hspec ?_ r1), ?_, ?_⟩
  · unfold negate
    rw [ha]
    simp only [Bool.not_true, Bool.false_eq_true, if_false]
    rw [hf, h1]
    exact r1
  · exact (hB.optimize _ h6.good).pure ((hB.star s h2.good).pure h3')
  · intro x
    rw [r3, hsame, h4, hal, hbase, hfl]
    have := hg.good.alpha
    constructor
    · rintro ((((rfl | rfl | rfl) | h) | h) | h)
      · exact this.eps
      · exact this.unk
      · exact this.idn
      · exact h.2
      · exact h.2
      · exact h
    · exact .inr
  · intro l w
    rw [r4, h11, h8, star_pairs (P := fun x => Ordinary x ∨ Flags.isDiacritic x = true ∧ x ∈ g.alphabet), and_assoc]
    intro l w
    rw [h5, m0]
    simp only [hfl]
    constructor
    · rintro (⟨h, x, e, hx⟩ | ⟨h, x, hx, e⟩)
      · exact ⟨h, x, e, .inl hx⟩
      · exact ⟨h, x, e, .inr hx⟩
    · rintro ⟨h, x, e, hx | hx⟩
      · exact .inl ⟨h, x, e, hx⟩
      · exact .inr ⟨h, x, hx, e⟩

omit hB in
/-- C73: only automata have a complement. -/
theorem C73_negate_throws (B : Backend) (g : Graph) (h : isAutomaton g = false) : negate B g = .throws := by
  unfold negate
  rw [h]
  rfl

/-- C73: the complement of the complement accepts what the automaton accepts, as far as it consists of ordinary symbols and
flag diacritics. -/
theorem C73_negate_twice (g : Graph) (hg : Usual g) (hp : Plain g) (ha : isAutomaton g = true) (r : Graph)
    (hr : negate B g = .ok r) : ∃ r', negate B r = .ok r' ∧
      ∀ l w, Means r' l w ↔ 0 ≤ w ∧
        (∀ p ∈ l, p.1 = p.2 ∧ (Ordinary p.1 ∨ Flags.isDiacritic p.1 = true ∧ p.1 ∈ g.alphabet)) ∧ ∃ v, Means g l v := by
  obtain ⟨r₁, e, h1, hra, h2, h3⟩ := C73_negate hB g hg hp ha
  rw [hr] at e
  cases e
  obtain ⟨r', e', _, _, _, h4⟩ := C73_negate hB r h1 (fun x hx hm => hp x hx ((h2 x).mp hm)) hra
  refine ⟨r', e', fun l w => ?_⟩
  rw [h4]
  simp only [h2, h3]
  refine and_congr_right fun hw => and_congr_right fun hl => ?_
  constructor
  · intro h
    by_contra hn
    exact h 0 ⟨Int.le_refl _, hl, fun v hv => hn ⟨v, hv⟩⟩
  · rintro ⟨v, hv⟩ v' ⟨_, _, h⟩
    exact h v hv

/-! ## Repetition -/

omit hB in
theorem Times.zero {L : List (Sym × Sym) → Int → Prop} {l : List (Sym × Sym)} {w : Int} : Times L 0 l w ↔ l = [] ∧ 0 ≤ w := by
  constructor
  · rintro ⟨parts, h1, _, rfl, h2⟩
    rw [List.length_eq_zero_iff] at h1
    subst h1
    exact ⟨rfl, h2⟩
  · rintro ⟨rfl, h⟩
    exact ⟨[], rfl, by simp, rfl, h⟩

omit hB in
theorem Times.one {L : List (Sym × Sym) → Int → Prop} (hL : ∀ l v w, L l v → v ≤ w → L l w) {l : List (Sym × Sym)} {w : Int} :
    Times L 1 l w ↔ L l w := by
  constructor
  · rintro ⟨parts, h1, h, rfl, h2⟩
    obtain ⟨⟨a, v⟩, rfl⟩ := List.length_eq_one_iff.mp h1
    simp only [List.map_cons, List.map_nil, List.sum_cons, List.sum_nil] at h2
    simp only [List.flatMap_cons, List.flatMap_nil, List.append_nil]
    exact hL _ _ _ (h (a, v) (by simp)) (by omega)
  · intro h
    exact ⟨[(l, w)], rfl, by simpa using h, by simp, by simp⟩

omit hB in
theorem Times.add {L : List (Sym × Sym) → Int → Prop} {n m : Nat} {l : List (Sym × Sym)} {w : Int} :
    Times L (n + m) l w ↔ ∃ l₁ l₂ w₁ w₂, Times L n l₁ w₁ ∧ Times L m l₂ w₂ ∧ l = l₁ ++ l₂ ∧ w₁ + w₂ ≤ w := by
  constructor
  · rintro ⟨parts, h1, h, rfl, h2⟩
    refine ⟨_, _, _, _, ⟨parts.take n, by rw [List.length_take]; omega, fun p hp => h p (List.mem_of_mem_take hp), rfl, Int.le_refl _⟩,
      ⟨parts.drop n, by rw [List.length_drop]; omega, fun p hp => h p (List.mem_of_mem_drop hp), rfl, Int.le_refl _⟩, ?_, ?_⟩
    · rw [← List.flatMap_append, List.take_append_drop]
    · rw [← List.sum_append, ← List.map_append, List.take_append_drop]
      exact h2
  · rintro ⟨_, _, w₁, w₂, ⟨a, h1, h2, rfl, h3⟩, ⟨b, k1, k2, rfl, k3⟩, rfl, hw⟩
    refine ⟨a ++ b, by rw [List.length_append, h1, k1], ?_, by rw [List.flatMap_append], ?_⟩
    · intro p hp
      rcases List.mem_append.mp hp with hp | hp
      · exact h2 p hp
      · exact k2 p hp
    · rw [List.map_append, List.sum_append]
      omega

omit hB in
theorem Times.imp {L M : List (Sym × Sym) → Int → Prop} (h : ∀ l w, L l w → M l w) {n : Nat} {l : List (Sym × Sym)} {w : Int}
    (ht : Times L n l w) : Times M n l w := by
  obtain ⟨parts, h1, h2, h3⟩ := ht
  exact ⟨parts, h1, fun p hp => h _ _ (h2 p hp), h3⟩

omit hB in
theorem star_times {L : List (Sym × Sym) → Int → Prop} {l : List (Sym × Sym)} {w : Int} :
    Star L l w ↔ ∃ n, Times L n l w := by
  constructor
  · intro h
    induction h with
    | nil hw => exact ⟨0, Times.zero.mpr ⟨rfl, hw⟩⟩
    | @cons l l' v v' h _ ih =>
      obtain ⟨n, ih⟩ := ih
      refine ⟨1 + n, Times.add.mpr ⟨l, l', v, v', ⟨[(l, v)], rfl, by simpa using h, by simp, by simp⟩, ih, rfl, Int.le_refl _⟩⟩
  · rintro ⟨_, parts, rfl, h, rfl, hw⟩
    induction parts generalizing w with
    | nil => exact .nil hw
    | cons p parts ih =>
      have := Star.cons (h p (by simp)) (ih (w := w - p.2) (fun q hq => h q (by simp [hq])) (by
        simp only [List.map_cons, List.sum_cons] at hw
        omega))
      rwa [show p.2 + (w - p.2) = w by omega] at this

omit hB in
theorem times_optional {L : List (Sym × Sym) → Int → Prop} {n : Nat} {l : List (Sym × Sym)} {w : Int} :
    Times (fun l w => (l = [] ∧ 0 ≤ w) ∨ L l w) n l w ↔ ∃ m ≤ n, Times L m l w := by
  constructor
  · rintro ⟨parts, rfl, h, rfl, hw⟩
    induction parts generalizing w with
    | nil => exact ⟨0, Nat.le_refl _, Times.zero.mpr ⟨rfl, hw⟩⟩
    | cons p parts ih =>
      simp only [List.map_cons, List.sum_cons] at hw
      obtain ⟨m, hm, ht⟩ := ih (w := w - p.2) (fun q hq => h q (by simp [hq])) (by omega)
      rcases h p (by simp) with ⟨e, h0⟩ | hL
      · refine ⟨m, by simp; omega, ?_⟩
        obtain ⟨qs, a, b, c, d⟩ := ht
        exact ⟨qs, a, b, by rw [List.flatMap_cons, e, c]; rfl, by omega⟩
      · refine ⟨1 + m, by simp; omega, Times.add.mpr ⟨p.1, _, p.2, _, ⟨[p], rfl, by simpa using hL, by simp, by simp⟩, ht, ?_, by omega⟩⟩
        rw [List.flatMap_cons]
  · rintro ⟨m, hm, ht⟩
    obtain ⟨k, rfl⟩ : ∃ k, n = m + k := ⟨n - m, by omega⟩
    refine Times.add.mpr ⟨l, [], w, 0, ht.imp fun l w h => .inr h, ?_, by simp, by omega⟩
    refine ⟨List.replicate k ([], 0), by simp, ?_, ?_, ?_⟩
    · intro p hp
      rw [(List.mem_replicate.mp hp).2]
      exact .inl ⟨rfl, Int.le_refl _⟩
    · simp
    · simp

omit hB in
theorem epsilon_arcs (al : List Sym) (s : Nat) : ({ epsilonGraph with alphabet := al } : Graph).arcs s = [] := by
  match s with
  | 0 => rfl
  | s + 1 => simp [Graph.arcs, epsilonGraph]

omit hB in
theorem epsilon_final (al : List Sym) (s : Nat) (w : Int) :
    ({ epsilonGraph with alphabet := al } : Graph).final s = some w ↔ s = 0 ∧ w = 0 := by
  have hf : FinalMap ({ epsilonGraph with alphabet := al } : Graph) := by simp [FinalMap, epsilonGraph]
  rw [hf.iff]
  simp [epsilonGraph]

omit hB in
/-- An epsilon transducer with the alphabet of another one. -/
theorem epsilon_good {al : List Sym} (h1 : epsilon ∈ al) (h2 : unknown ∈ al) (h3 : identity ∈ al) :
    Good { epsilonGraph with alphabet := al } := by
  refine ⟨⟨by simp [epsilonGraph], ?_, ?_⟩, ⟨?_, h1, h2, h3⟩, by simp [FinalMap, epsilonGraph]⟩
  · intro s a ha; rw [epsilon_arcs] at ha; exact absurd ha (by simp)
  · intro s w hw; rw [((epsilon_final ..).mp hw).1]; simp [epsilonGraph]
  · intro s a ha; rw [epsilon_arcs] at ha; exact absurd ha (by simp)

omit hB in
theorem epsilon_label {al : List Sym} (p : Sym × Sym) : ¬ HasLabel { epsilonGraph with alphabet := al } p := by
  rintro ⟨s, a, ha, _⟩
  rw [epsilon_arcs] at ha
  exact absurd ha (by simp)

omit hB in
theorem epsilon_cost (al : List Sym) (l : List (Sym × Sym)) (w : Int) :
    Cost { epsilonGraph with alphabet := al } l w ↔ l = [] ∧ 0 ≤ w := by
  constructor
  · rintro ⟨l', w', ⟨q, v, f, hp, hf, rfl⟩, rfl, hw⟩
    cases hp with
    | nil =>
      rw [((epsilon_final ..).mp hf).2] at hw
      exact ⟨rfl, hw⟩
    | cons ha _ => rw [epsilon_arcs] at ha; exact absurd ha (by simp)
  · rintro ⟨rfl, hw⟩
    exact ⟨[], 0, ⟨0, 0, 0, .nil 0, (epsilon_final ..).mpr ⟨rfl, rfl⟩, rfl⟩, rfl, hw⟩

/-- Concatenating `n` times. -/
theorem iterate_spec {g h : Graph} (hg : Good g) (hh : Good h) (hs : Same h g) (n : Nat) :
    Result g ((List.range n).foldl (fun r _ => B.concat r h) { epsilonGraph with alphabet := g.alphabet }) (HasLabel h)
      (Times (Cost h) n) := by
  induction n with
  | zero =>
    refine ⟨epsilon_good hg.alpha.eps hg.alpha.unk hg.alpha.idn, fun x => Iff.rfl, fun p hp => absurd hp (epsilon_label p), ?_⟩
    intro l w
    rw [Times.zero]
    exact epsilon_cost ..
  | succ n ih =>
    rw [List.range_succ, List.foldl_append]
    have := hB.concat _ h ih.good hh fun x => (ih.alphabet x).trans (hs x).symm
    refine ⟨this.good, fun x => (this.alphabet x).trans (ih.alphabet x), ?_, ?_⟩
    · intro p hp
      rcases this.labels p hp with (hp | hp) | hp
      · exact ih.labels p hp
      · exact .inl hp
      · exact .inr hp
    · intro l w
      rw [List.foldl_cons, List.foldl_nil, this.cost, Times.add]
      simp only [ih.cost, Times.one (L := Cost h) (fun _ _ _ h => h.mono)]

omit hB in
theorem times_means {g : Graph} {n : Nat} {l : List (Sym × Sym)} {w : Int} :
    (∃ k, Times (Cost g) n k w ∧ List.Forall₂ (St g.alphabet) k l) ↔ Times (Means g) n l w := by
  induction n generalizing l w with
  | zero =>
    simp only [Times.zero]
    constructor
    · rintro ⟨k, ⟨rfl, hw⟩, hf⟩; cases hf; exact ⟨rfl, hw⟩
    · rintro ⟨rfl, hw⟩; exact ⟨[], ⟨rfl, hw⟩, .nil⟩
  | succ n ih =>
    constructor
    · rintro ⟨k, ht, hf⟩
      obtain ⟨k₁, k₂, w₁, w₂, h1, h2, rfl, hw⟩ := Times.add.mp ht
      obtain ⟨l₁, l₂, rfl, f1, f2⟩ := forall₂_split hf
      rw [Times.one (fun _ _ _ h => h.mono)] at h2
      exact Times.add.mpr ⟨l₁, l₂, w₁, w₂, ih.mp ⟨k₁, h1, f1⟩,
        (Times.one fun _ _ _ h => h.mono).mpr (means_iff.mpr ⟨k₂, h2, f2⟩), rfl, hw⟩
    · intro ht
      obtain ⟨l₁, l₂, w₁, w₂, h1, h2, rfl, hw⟩ := Times.add.mp ht
      obtain ⟨k₁, h1, f1⟩ := ih.mpr h1
      obtain ⟨k₂, h2, f2⟩ := means_iff.mp ((Times.one fun _ _ _ h => h.mono).mp h2)
      exact ⟨k₁ ++ k₂, Times.add.mpr ⟨k₁, k₂, w₁, w₂, h1, (Times.one fun _ _ _ h => h.mono).mpr h2, rfl, hw⟩, forall₂_join f1 f2⟩

omit hB in
theorem epsilonGraph_usual : Usual epsilonGraph := by
  refine ⟨epsilon_good (al := [epsilon, unknown, identity]) (by simp) (by simp) (by simp), paired_of_labels fun p hp => ?_, by decide⟩
  exact absurd hp (epsilon_label (al := [epsilon, unknown, identity]) p)

omit hB in
theorem epsilonGraph_means (l : List (Sym × Sym)) (w : Int) : Means epsilonGraph l w ↔ l = [] ∧ 0 ≤ w := by
  rw [means_iff]
  have := epsilon_cost [epsilon, unknown, identity]
  constructor
  · rintro ⟨k, hk, hf⟩
    obtain ⟨rfl, hw⟩ := (this _ _).mp hk
    cases hf
    exact ⟨rfl, hw⟩
  · rintro ⟨rfl, hw⟩
    exact ⟨[], (this _ _).mpr ⟨rfl, hw⟩, .nil⟩

/-- Repetition of a transducer that has the alphabet of `g`. -/
theorem iterate_means {g h : Graph} (hg : Usual g) (hh : Usual h) (hs : Same h g) (n : Nat) :
    Usual (if n = 0 then epsilonGraph
      else (List.range n).foldl (fun r _ => B.concat r h) { epsilonGraph with alphabet := g.alphabet }) ∧
    (∀ x, x ∈ (if n = 0 then epsilonGraph
      else (List.range n).foldl (fun r _ => B.concat r h) { epsilonGraph with alphabet := g.alphabet }).alphabet →
        x ∈ g.alphabet) ∧
    ∀ l w, Means (if n = 0 then epsilonGraph
      else (List.range n).foldl (fun r _ => B.concat r h) { epsilonGraph with alphabet := g.alphabet }) l w ↔
        Times (Means h) n l w := by
  by_cases hn : n = 0
  · subst hn
    simp only [if_true, Times.zero]
    refine ⟨epsilonGraph_usual, ?_, epsilonGraph_means⟩
    intro x hx
    have : x = epsilon ∨ x = unknown ∨ x = identity := by simpa [epsilonGraph] using hx
    rcases this with rfl | rfl | rfl
    · exact hg.good.alpha.eps
    · exact hg.good.alpha.unk
    · exact hg.good.alpha.idn
  · simp only [if_neg hn]
    have hr := iterate_spec hB hg.good hh.good hs n
    refine ⟨hr.usual (fun p => label_paired hh.paired) hg.nonempty, fun x => (hr.alphabet x).mp, fun l w => ?_⟩
    rw [hr.means, ← times_means]
    constructor
    · rintro ⟨k, h1, h2⟩; exact ⟨k, h1, forall₂_congr (fun x => (hs x).symm) h2⟩
    · rintro ⟨k, h1, h2⟩; exact ⟨k, h1, forall₂_congr hs h2⟩

/-- C73, `repeat_n`: exactly `n` times. -/
theorem C73_repeatN (g : Graph) (hg : Usual g) (n : Nat) : Usual (repeatN B g n) ∧
    (∀ x, x ∈ (repeatN B g n).alphabet → x ∈ g.alphabet) ∧ ∀ l w, Means (repeatN B g n) l w ↔ Times (Means g) n l w :=
  iterate_means hB hg hg (fun _ => Iff.rfl) n

/-- C73, `optionalize`: once or not at all. -/
theorem C73_optionalize (g : Graph) (hg : Usual g) : Usual (optionalize B g) ∧ Same (optionalize B g) g ∧
    ∀ l w, Means (optionalize B g) l w ↔ (l = [] ∧ 0 ≤ w) ∨ Means g l w := by
  have hr := hB.disjunct { epsilonGraph with alphabet := g.alphabet } g
    (epsilon_good hg.good.alpha.eps hg.good.alpha.unk hg.good.alpha.idn) hg.good (fun _ => Iff.rfl)
  refine ⟨hr.usual ?_ hg.nonempty, hr.alphabet, fun l w => ?_⟩
  · rintro p (hp | hp)
    · exact absurd hp (epsilon_label p)
    · exact label_paired hg.paired hp
  · unfold optionalize
    rw [hr.means, means_iff]
    simp only [epsilon_cost]
    constructor
    · rintro ⟨k, ⟨rfl, hw⟩ | hk, hf⟩
      · cases hf; exact .inl ⟨rfl, hw⟩
      · exact .inr ⟨k, hk, hf⟩
    · rintro (⟨rfl, hw⟩ | ⟨k, hk, hf⟩)
      · exact ⟨[], .inl ⟨rfl, hw⟩, .nil⟩
      · exact ⟨k, .inr hk, hf⟩

/-- C73, `repeat_n_minus`: at most `n` times. -/
theorem C73_repeatLe (g : Graph) (hg : Usual g) (n : Nat) : Usual (repeatLe B g n) ∧
    (∀ x, x ∈ (repeatLe B g n).alphabet → x ∈ g.alphabet) ∧
    ∀ l w, Means (repeatLe B g n) l w ↔ ∃ m ≤ n, Times (Means g) m l w := by
  obtain ⟨u, s, hm⟩ := C73_optionalize hB g hg
  obtain ⟨h1, h2, h3⟩ := iterate_means hB hg u s n
  refine ⟨h1, h2, fun l w => (h3 l w).trans ?_⟩
  rw [← times_optional]
  exact ⟨Times.imp fun l w => (hm l w).mp, Times.imp fun l w => (hm l w).mpr⟩

omit hB in
theorem Plain.mono {g h : Graph} (hg : Plain g) (h' : ∀ x, x ∈ h.alphabet → x ∈ g.alphabet) : Plain h :=
  fun x hx hm => hg x hx (h' x hm)

/-- C73, `repeat_n_plus`: at least `n` times. -/
theorem C73_repeatNPlus (g : Graph) (hg : Usual g) (hp : Plain g) (n : Nat) : ∃ r, repeatNPlus B g n = .ok r ∧ Usual r ∧
    ∀ l w, Means r l w ↔ ∃ m ≥ n, Times (Means g) m l w := by
  obtain ⟨h1, h2, h3⟩ := C73_repeatN hB g hg n
  obtain ⟨k1, k2, k3⟩ := C73_star hB g hg
  obtain ⟨r, e, u, _, hm⟩ := C73_concatenate hB _ _ h1 k1
    ((hp.mono h2).same (hp.mono fun x => (k2 x).mp) h1.good k1.good)
  refine ⟨r, e, u, fun l w => ?_⟩
  rw [hm]
  simp only [h3, k3, star_times]
  constructor
  · rintro ⟨l₁, l₂, w₁, w₂, a, ⟨m, b⟩, c, d⟩
    exact ⟨n + m, by omega, Times.add.mpr ⟨l₁, l₂, w₁, w₂, a, b, c, d⟩⟩
  · rintro ⟨m, hm, ht⟩
    obtain ⟨k, rfl⟩ : ∃ k, m = n + k := ⟨m - n, by omega⟩
    obtain ⟨l₁, l₂, w₁, w₂, a, b, c, d⟩ := Times.add.mp ht
    exact ⟨l₁, l₂, w₁, w₂, a, ⟨k, b⟩, c, d⟩

theorem repeatNToK_means (g : Graph) (hg : Usual g) (hp : Plain g) (n k : Nat) : ∃ r, repeatNToK B g n k = .ok r ∧ Usual r ∧
    ∀ l w, Means r l w ↔ ∃ m ≤ (k + 2 ^ 32 - n) % 2 ^ 32, Times (Means g) (n + m) l w := by
  obtain ⟨h1, h2, h3⟩ := C73_repeatN hB g hg n
  obtain ⟨k1, k2, k3⟩ := C73_repeatLe hB g hg ((k + 2 ^ 32 - n) % 2 ^ 32)
  obtain ⟨r, e, u, _, hm⟩ := C73_concatenate hB _ _ h1 k1 ((hp.mono h2).same (hp.mono k2) h1.good k1.good)
  refine ⟨r, e, u, fun l w => ?_⟩
  rw [hm]
  simp only [h3, k3]
  constructor
  · rintro ⟨l₁, l₂, w₁, w₂, a, ⟨m, hm, b⟩, c, d⟩
    exact ⟨m, hm, Times.add.mpr ⟨l₁, l₂, w₁, w₂, a, b, c, d⟩⟩
  · rintro ⟨m, hm, ht⟩
    obtain ⟨l₁, l₂, w₁, w₂, a, b, c, d⟩ := Times.add.mp ht
    exact ⟨l₁, l₂, w₁, w₂, a, ⟨m, hm, b⟩, c, d⟩

/-- C73, `repeat_n_to_k`: at least `n` and at most `k` times, for `n` up to `k`.  Missing: `n` greater than `k`, see
`C73_repeatNToK_violated`. -/
theorem C73_repeatNToK_partial (g : Graph) (hg : Usual g) (hp : Plain g) (n k : Nat) (hnk : n ≤ k) (hk : k < 2 ^ 32) :
    ∃ r, repeatNToK B g n k = .ok r ∧ Usual r ∧ ∀ l w, Means r l w ↔ ∃ m, n ≤ m ∧ m ≤ k ∧ Times (Means g) m l w := by
  obtain ⟨r, e, u, h⟩ := repeatNToK_means hB g hg hp n k
  refine ⟨r, e, u, fun l w => ?_⟩
  rw [h, show (k + 2 ^ 32 - n) % 2 ^ 32 = k - n by omega]
  constructor
  · rintro ⟨m, hm, ht⟩; exact ⟨n + m, by omega, by omega, ht⟩
  · rintro ⟨m, h1, h2, ht⟩; exact ⟨m - n, by omega, by rwa [show n + (m - n) = m by omega]⟩

/-- C73: asked for at least two and at most one repetition of `a`, the library gives a transducer that accepts `aa` and `aaa`,
although no number is at least two and at most one. -/
theorem C73_repeatNToK_violated : ∃ r, repeatNToK B (single ['a'] ['a']) 2 1 = .ok r ∧
    Means r [(['a'], ['a']), (['a'], ['a'])] 0 ∧ Means r [(['a'], ['a']), (['a'], ['a']), (['a'], ['a'])] 0 := by
  have hpl : Plain (single ['a'] ['a']) := by
    intro x hx hm
    rcases (single_alphabet ..).mp hm with e | e | e | e | e
    · exact .inl e
    · exact .inr (.inl e)
    · exact .inr (.inr e)
    · subst e; exact absurd hx (by decide)
    · subst e; exact absurd hx (by decide)
  obtain ⟨r, e, _, h⟩ := repeatNToK_means hB (single ['a'] ['a']) (single_usual (by decide) (by decide) Iff.rfl) hpl 2 1
  have hm := (symbol_means (x := ['a']) (by decide) (by decide) (by decide) [(['a'], ['a'])] 0).mpr ⟨Int.le_refl _, rfl⟩
  refine ⟨r, e, (h _ _).mpr ⟨0, Nat.zero_le _, ?_⟩, (h _ _).mpr ⟨1, by decide, ?_⟩⟩
  · exact ⟨[([(['a'], ['a'])], 0), ([(['a'], ['a'])], 0)], rfl, by simpa using hm, rfl, by simp⟩
  · exact ⟨[([(['a'], ['a'])], 0), ([(['a'], ['a'])], 0), ([(['a'], ['a'])], 0)], rfl, by simpa using hm, rfl, by simp⟩

end

end Hfst.Trans
