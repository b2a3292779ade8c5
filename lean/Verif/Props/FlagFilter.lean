import Verif.Props.FlagLogic
import Verif.Props.RulesBasic
import Verif.Props.Shuffle

/-!
# Property C80, the filters: automata over ordinary symbols
-/
namespace Hfst.Trans
open Hfst.Basic Graph
open Hfst.Lexc (strip Cost Good HasLabel Star Larger larger_addSymbols)

/-- The string with each symbol paired with itself. -/
def twice (s : List Sym) : List (Sym × Sym) := s.map fun x => (x, x)

theorem twice_inj {s t : List Sym} (h : twice s = twice t) : s = t := by
  unfold twice at h
  exact List.map_injective_iff.mpr (fun a b e => (Prod.mk.inj e).1) h

theorem twice_append (s t : List Sym) : twice (s ++ t) = twice s ++ twice t := by simp [twice]

theorem same_split {s : List Sym} {a b : List (Sym × Sym)} (h : twice s = a ++ b) : ∃ t u, s = t ++ u ∧ a = twice t ∧ b = twice u := by
  unfold twice at h ⊢
  obtain ⟨t, u, e, h1, h2⟩ := List.map_eq_append_iff.mp h
  exact ⟨t, u, e, h1.symm, h2.symm⟩

/-- All symbols are ordinary. -/
def AllOrdinary (s : List Sym) : Prop := ∀ x ∈ s, Ordinary x

/-- `g` is an automaton without weights that knows the symbols of `S` and accepts the strings of `L`. -/
structure Lang (g : Graph) (S : Sym → Prop) (L : List Sym → Prop) : Prop where
  usual : Usual g
  plain : Plain g
  pure : Pure g
  alphabet : ∀ x, x ∈ g.alphabet ↔ x = epsilon ∨ x = unknown ∨ x = identity ∨ S x
  means : ∀ l w, Means g l w ↔ 0 ≤ w ∧ ∃ s, l = twice s ∧ L s

theorem Lang.congr {g : Graph} {S T : Sym → Prop} {L M : List Sym → Prop} (h : Lang g S L) (hS : ∀ x, S x ↔ T x) (hL : ∀ s, L s ↔ M s) :
    Lang g T M :=
  ⟨h.usual, h.plain, h.pure, fun x => by rw [h.alphabet, hS], fun l w => by rw [h.means]; simp only [hL]⟩

theorem Lang.den {g : Graph} {S : Sym → Prop} {L : List Sym → Prop} (h : Lang g S L) :
    Den g fun l w => 0 ≤ w ∧ ∃ s, l = twice s ∧ L s := ⟨h.usual, h.plain, h.means⟩

theorem Lang.specials {g h : Graph} {S T : Sym → Prop} {L M : List Sym → Prop} (dg : Lang g S L) (dh : Lang h T M) : SameSpecials g h :=
  dg.den.specials dh.den

theorem Lang.union {g h r : Graph} {S T : Sym → Prop} {L M : List Sym → Prop} (dg : Lang g S L) (dh : Lang h T M)
    (hal : ∀ x, x ∈ r.alphabet ↔ x ∈ g.alphabet ∨ x ∈ h.alphabet) (x : Sym) :
    x ∈ r.alphabet ↔ x = epsilon ∨ x = unknown ∨ x = identity ∨ S x ∨ T x := by
  rw [hal, dg.alphabet, dh.alphabet]
  generalize (x = epsilon) = a
  generalize (x = unknown) = b
  generalize (x = identity) = c
  tauto

section
variable {B : Backend} (hB : B.Ok)
include hB

theorem Lang.optimize {g : Graph} {S : Sym → Prop} {L : List Sym → Prop} (h : Lang g S L) : Lang (B.optimize g) S L := by
  obtain ⟨h1, h2, h3⟩ := optimize_means hB h.usual
  exact ⟨h1, h.plain.mono fun x hx => (h2 x).mp hx, (hB.optimize _ h.usual.good).pure h.pure,
    fun x => by rw [h2]; exact h.alphabet x, fun l w => by rw [h3]; exact h.means l w⟩

theorem Lang.anyStar : Lang (anyStar B) (fun _ => False) AllOrdinary := by
  have ui : Usual (single identity identity) := single_usual (by decide) (by decide) Iff.rfl
  obtain ⟨h1, h2, h3⟩ := C73_star hB (single identity identity) ui
  have hal : ∀ x, x ∈ (Trans.anyStar B).alphabet ↔ x = epsilon ∨ x = unknown ∨ x = identity ∨ False := by
    intro x
    unfold Trans.anyStar
    rw [h2, single_alphabet]
    generalize (x = epsilon) = a
    generalize (x = unknown) = b
    generalize (x = identity) = c
    tauto
  refine ⟨h1, ?_, (hB.star _ ui.good).pure (single_pure (by decide)), hal, fun l w => ?_⟩
  · intro x _ hx
    rcases (hal x).mp hx with h | h | h | h
    · exact .inl h
    · exact .inr (.inl h)
    · exact .inr (.inr h)
    · exact h.elim
  · unfold Trans.anyStar
    rw [h3, star_pairs (P := Ordinary) identity_means]
    refine and_congr_right fun _ => ?_
    constructor
    · intro h
      refine ⟨l.map Prod.fst, ?_, ?_⟩
      · unfold twice
        rw [List.map_map]
        conv_lhs => rw [← List.map_id l]
        refine List.map_congr_left fun p hp => ?_
        have := (h p hp).1
        exact Prod.ext rfl this.symm
      · intro x hx
        obtain ⟨p, hp, rfl⟩ := List.mem_map.mp hx
        exact (h p hp).2
    · rintro ⟨s, rfl, hs⟩ p hp
      obtain ⟨x, hx, rfl⟩ := List.mem_map.mp hp
      exact ⟨rfl, hs x hx⟩

omit hB in
theorem Lang.symbol {x : Sym} (hx : Ordinary x) (hn : isSpecial x = false) (hne : x ≠ []) : Lang (single x x) (· = x) (· = [x]) := by
  have hal : ∀ z, z ∈ (single x x).alphabet ↔ z = epsilon ∨ z = unknown ∨ z = identity ∨ z = x := by
    intro z
    rw [single_alphabet]
    constructor
    · rintro (h | h | h | h | h)
      · exact .inl h
      · exact .inr (.inl h)
      · exact .inr (.inr (.inl h))
      · exact .inr (.inr (.inr h))
      · exact .inr (.inr (.inr h))
    · rintro (h | h | h | h)
      · exact .inl h
      · exact .inr (.inl h)
      · exact .inr (.inr (.inl h))
      · exact .inr (.inr (.inr (.inl h)))
  refine ⟨single_usual hne hne Iff.rfl, ?_, single_pure hx.2.1, hal, fun l w => ?_⟩
  · intro z hz hm
    rcases (hal z).mp hm with h | h | h | h
    · exact .inl h
    · exact .inr (.inl h)
    · exact .inr (.inr h)
    · rw [h, hn] at hz; cases hz
  · rw [symbol_means hx.1 hx.2.1 hx.2.2.1]
    refine and_congr_right fun _ => ?_
    constructor
    · rintro rfl; exact ⟨[x], rfl, rfl⟩
    · rintro ⟨s, rfl, rfl⟩; rfl

omit hB in
theorem Lang.nowhere : Lang nowhere (fun _ => False) (fun _ => False) := by
  have hal : ∀ z, z ∈ Trans.nowhere.alphabet ↔ z = epsilon ∨ z = unknown ∨ z = identity ∨ False := by
    intro z
    simp [Trans.nowhere]
  have harc : ∀ s, Trans.nowhere.arcs s = [] := by
    intro s
    unfold Graph.arcs Trans.nowhere
    cases s <;> simp
  have hlab : ∀ p, ¬ HasLabel Trans.nowhere p := by
    rintro p ⟨s, a, ha, _⟩
    rw [harc] at ha
    cases ha
  have hfin : ∀ s w, Trans.nowhere.final s ≠ some w := by
    intro s w
    simp [Graph.final, Trans.nowhere, mapGet]
  refine ⟨⟨?_, paired_of_labels fun p hp => absurd hp (hlab p), by decide⟩, ?_, fun p hp => absurd hp (hlab p), hal, fun l w => ?_⟩
  · refine ⟨⟨by simp [Trans.nowhere], ?_, ?_⟩, ⟨?_, (hal _).mpr (.inl rfl), (hal _).mpr (.inr (.inl rfl)), (hal _).mpr (.inr (.inr (.inl rfl)))⟩,
      by simp [FinalMap, Trans.nowhere]⟩
    · intro s a ha; rw [harc] at ha; cases ha
    · intro s w hw; exact absurd hw (hfin s w)
    · intro s a ha; rw [harc] at ha; cases ha
  · intro z _ hm
    rcases (hal z).mp hm with h | h | h | h
    · exact .inl h
    · exact .inr (.inl h)
    · exact .inr (.inr h)
    · exact h.elim
  · rw [means_iff]
    constructor
    · rintro ⟨k, ⟨_, _, ⟨q, v, f, _, hf, _⟩, _, _⟩, _⟩
      exact absurd hf (hfin _ _)
    · rintro ⟨_, s, _, h⟩
      exact h.elim

theorem Lang.concat {g h : Graph} {S T : Sym → Prop} {L M : List Sym → Prop} (dg : Lang g S L) (dh : Lang h T M) :
    ∃ r, concatenate B g h = .ok r ∧ Lang r (fun x => S x ∨ T x) fun s => ∃ t u, s = t ++ u ∧ L t ∧ M u := by
  obtain ⟨r, h1, h2, h3, h4⟩ := C73_concatenate hB g h dg.usual dh.usual (dg.specials dh)
  refine ⟨r, h1, h2, Plain.union dg.plain dh.plain h3, ?_, dg.union dh h3, fun l w => ?_⟩
  · obtain ⟨g', h', e, ug, uh, hsame, _⟩ := prepared dg.usual dh.usual (dg.specials dh)
    unfold concatenate apply at h1
    dsimp only at h1
    rw [e] at h1
    cases h1
    rw [prepare_same (dg.specials dh)] at e
    obtain ⟨p1, p2⟩ := harmonize_pure dg.usual e
    exact (hB.concat g' h' ug.good uh.good hsame).pure fun p hp => hp.elim (p1 dg.pure p) (p2 dh.pure p)
  · rw [h4]
    simp only [dg.means, dh.means]
    constructor
    · rintro ⟨l₁, l₂, w₁, w₂, ⟨h1, s, rfl, hs⟩, ⟨h2, t, rfl, ht⟩, rfl, hw⟩
      exact ⟨by omega, s ++ t, (twice_append s t).symm, s, t, rfl, hs, ht⟩
    · rintro ⟨hw, s, rfl, t, u, rfl, ht, hu⟩
      exact ⟨twice t, twice u, 0, 0, ⟨Int.le_refl _, t, rfl, ht⟩, ⟨Int.le_refl _, u, rfl, hu⟩, twice_append t u, by omega⟩

theorem Lang.disjunct {g h : Graph} {S T : Sym → Prop} {L M : List Sym → Prop} (dg : Lang g S L) (dh : Lang h T M) :
    ∃ r, disjunct B g h = .ok r ∧ Lang r (fun x => S x ∨ T x) fun s => L s ∨ M s := by
  obtain ⟨r, h1, h2, h3, h4⟩ := C73_disjunct hB g h dg.usual dh.usual (dg.specials dh)
  refine ⟨r, h1, h2, Plain.union dg.plain dh.plain h3, disjunct_pure hB dg.usual dh.usual (dg.specials dh) dg.pure dh.pure h1,
    dg.union dh h3, fun l w => ?_⟩
  rw [h4, dg.means, dh.means]
  constructor
  · rintro (⟨hw, s, e, hs⟩ | ⟨hw, s, e, hs⟩)
    · exact ⟨hw, s, e, .inl hs⟩
    · exact ⟨hw, s, e, .inr hs⟩
  · rintro ⟨hw, s, e, hs | hs⟩
    · exact .inl ⟨hw, s, e, hs⟩
    · exact .inr ⟨hw, s, e, hs⟩

theorem Lang.intersect {g h : Graph} {S T : Sym → Prop} {L M : List Sym → Prop} (dg : Lang g S L) (dh : Lang h T M) :
    ∃ r, intersect B g h = .ok r ∧ Lang r (fun x => S x ∨ T x) fun s => L s ∧ M s := by
  obtain ⟨r, h1, h2, h3, h4⟩ := C73_intersect hB g h dg.usual dh.usual (dg.specials dh)
  refine ⟨r, h1, h2, Plain.union dg.plain dh.plain h3, ?_, dg.union dh h3, fun l w => ?_⟩
  · obtain ⟨g', h', e, ug, uh, hsame, _⟩ := prepared dg.usual dh.usual (dg.specials dh)
    unfold Trans.intersect apply at h1
    dsimp only at h1
    rw [e] at h1
    cases h1
    rw [prepare_same (dg.specials dh)] at e
    obtain ⟨p1, p2⟩ := harmonize_pure dg.usual e
    exact (hB.intersect g' h' ug.good uh.good hsame).pure (p1 dg.pure)
  · rw [h4]
    simp only [dg.means, dh.means]
    constructor
    · rintro ⟨w₁, w₂, ⟨h1, s, rfl, hs⟩, ⟨h2, t, e, ht⟩, hw⟩
      cases twice_inj e
      exact ⟨by omega, s, rfl, hs, ht⟩
    · rintro ⟨hw, s, rfl, hs, ht⟩
      exact ⟨0, 0, ⟨Int.le_refl _, s, rfl, hs⟩, ⟨Int.le_refl _, s, rfl, ht⟩, by omega⟩

theorem Lang.subtract {g h : Graph} {S T : Sym → Prop} {L M : List Sym → Prop} (dg : Lang g S L) (dh : Lang h T M) :
    ∃ r, subtract B g h = .ok r ∧ Lang r (fun x => S x ∨ T x) fun s => L s ∧ ¬ M s := by
  obtain ⟨r, h1, h2, h3, h4⟩ := C73_subtract hB g h dg.usual dh.usual (dg.specials dh)
  refine ⟨r, h1, h2, Plain.union dg.plain dh.plain h3, subtract_pure hB dg.usual dh.usual (dg.specials dh) dg.pure h1,
    dg.union dh h3, fun l w => ?_⟩
  rw [h4]
  simp only [dg.means, dh.means]
  constructor
  · rintro ⟨⟨hw, s, rfl, hs⟩, hn⟩
    exact ⟨hw, s, rfl, hs, fun hm => hn w ⟨hw, s, rfl, hm⟩⟩
  · rintro ⟨hw, s, rfl, hs, hn⟩
    refine ⟨⟨hw, s, rfl, hs⟩, ?_⟩
    rintro v ⟨_, t, e, ht⟩
    cases twice_inj e
    exact hn ht

theorem Lang.optionalize {g : Graph} {S : Sym → Prop} {L : List Sym → Prop} (dg : Lang g S L) :
    Lang (optionalize B g) S fun s => s = [] ∨ L s := by
  obtain ⟨h1, h2, h3⟩ := C73_optionalize hB g dg.usual
  have hr := hB.disjunct { epsilonGraph with alphabet := g.alphabet } g
    (epsilon_good dg.usual.good.alpha.eps dg.usual.good.alpha.unk dg.usual.good.alpha.idn) dg.usual.good (fun _ => Iff.rfl)
  refine ⟨h1, dg.plain.mono fun x hx => (h2 x).mp hx, hr.pure ?_, fun x => by rw [h2]; exact dg.alphabet x, fun l w => ?_⟩
  · rintro p (hp | hp)
    · exact absurd hp (epsilon_label p)
    · exact dg.pure p hp
  · rw [h3, dg.means]
    constructor
    · rintro (⟨rfl, hw⟩ | ⟨hw, s, e, hs⟩)
      · exact ⟨hw, [], rfl, .inl rfl⟩
      · exact ⟨hw, s, e, .inr hs⟩
    · rintro ⟨hw, s, e, rfl | hs⟩
      · exact .inl ⟨e, hw⟩
      · exact .inr ⟨hw, s, e, hs⟩

end

/-- Changes of the alphabet that change nothing. -/
theorem Lang.larger {g r : Graph} {S : Sym → Prop} {L : List Sym → Prop} (dg : Lang g S L) (hl : Larger g r) (hs : Same r g) : Lang r S L := by
  refine ⟨⟨hl.good dg.usual.good, paired_of_labels fun p hp => label_paired dg.usual.paired ((hl.label p).mp hp),
    fun h => dg.usual.nonempty ((hs _).mp h)⟩, dg.plain.mono fun x hx => (hs x).mp hx, fun p hp => dg.pure p ((hl.label p).mp hp),
    fun x => by rw [hs]; exact dg.alphabet x, fun l w => ?_⟩
  rw [← dg.means, means_iff, means_iff]
  have hc : ∀ k, Cost r k w ↔ Cost g k w := by
    intro k
    unfold Cost
    simp only [hl.accepts]
  constructor
  · rintro ⟨k, h1, h2⟩; exact ⟨k, (hc k).mp h1, forall₂_congr hs h2⟩
  · rintro ⟨k, h1, h2⟩; exact ⟨k, (hc k).mpr h1, forall₂_congr (fun x => (hs x).symm) h2⟩

/-- An automaton that accepts a symbol that it does not know uses the identity symbol. -/
theorem Lang.uses_identity {g : Graph} {S : Sym → Prop} {L : List Sym → Prop} (dg : Lang g S L)
    (h : ∃ x, Outside g.alphabet x ∧ L [x]) : HasLabel g (identity, identity) := by
  obtain ⟨x, hx, hL⟩ := h
  obtain ⟨k, hk, hf⟩ := means_iff.mp ((dg.means (twice [x]) 0).mpr ⟨Int.le_refl _, [x], rfl, hL⟩)
  unfold twice at hf
  cases k with
  | nil => cases hf
  | cons p k' =>
    have hp := hk.labels p (by simp)
    cases hf with
    | cons h1 _ =>
      obtain ⟨i, o⟩ := p
      rcases st_iff.mp h1 with ⟨rfl, rfl, _⟩ | ⟨_, _, ⟨e1, _⟩ | ⟨_, rfl⟩, _⟩
      · exact hp
      · exact absurd e1 (dg.pure _ hp).2
      · exact absurd (label_alpha dg.usual.good hp).1 hx.2

theorem Lang.prune {g : Graph} {S : Sym → Prop} {L : List Sym → Prop} (dg : Lang g S L)
    (h : ∃ x, Outside g.alphabet x ∧ L [x]) : Lang (convert (g.pruneAlphabet false)) S L := by
  have hid := dg.uses_identity h
  have : g.pruneAlphabet false = g := by
    unfold Graph.pruneAlphabet
    dsimp only
    rw [if_pos]
    simp only [Bool.not_false, Bool.true_and, Bool.or_eq_true, decide_eq_true_eq]
    exact .inr (mem_symbolsUsed.mpr ⟨_, hid, .inl rfl⟩)
  rw [this]
  refine dg.larger (larger_convert g) fun x => ?_
  rw [mem_convert, dg.alphabet]
  generalize (x = epsilon) = a
  generalize (x = unknown) = b
  generalize (x = identity) = c
  tauto

section
variable {B : Backend} (hB : B.Ok)
include hB

theorem Lang.complement {g : Graph} {S : Sym → Prop} {L : List Sym → Prop} (dg : Lang g S L) (h : ∀ x, ¬ S x → ¬ L [x]) :
    ∃ r, xreComplement B g = .ok r ∧ Lang r S fun s => AllOrdinary s ∧ ¬ L s := by
  obtain ⟨r, h1, h2⟩ := ((Lang.anyStar hB).optimize hB).subtract hB dg
  refine ⟨convert (r.pruneAlphabet false), ?_, ?_⟩
  · unfold xreComplement
    rw [isAutomaton_iff.mpr dg.pure, h1]
    rfl
  · refine Lang.congr (Lang.prune h2 ?_) (fun x => by simp) fun s => Iff.rfl
    obtain ⟨x, hx⟩ := exists_outside r.alphabet
    refine ⟨x, hx, ?_, h x fun hS => hx.2 ((h2.alphabet x).mpr (.inr (.inr (.inr (.inr hS)))))⟩
    intro y hy
    rw [List.mem_singleton.mp hy]
    exact hx.1

theorem Lang.contains {g : Graph} {S : Sym → Prop} {L : List Sym → Prop} (dg : Lang g S L) :
    ∃ r, contains B g = .ok r ∧ Lang r S fun s => ∃ a b c, s = a ++ (b ++ c) ∧ AllOrdinary a ∧ L b ∧ AllOrdinary c := by
  have hany := (Lang.anyStar hB).optimize hB
  obtain ⟨r1, e1, h1⟩ := hany.concat hB dg
  obtain ⟨r2, e2, h2⟩ := h1.concat hB hany
  refine ⟨B.optimize r2, ?_, (h2.optimize hB).congr (fun x => by simp) fun s => ?_⟩
  · unfold Trans.contains
    dsimp only
    rw [e1]
    dsimp only [Outcome.bind]
    rw [e2]
  · constructor
    · rintro ⟨_, c, rfl, ⟨a, b, rfl, ha, hb⟩, hc⟩
      exact ⟨a, b, c, by simp, ha, hb, hc⟩
    · rintro ⟨a, b, c, rfl, ha, hb, hc⟩
      exact ⟨a ++ b, c, by simp, ⟨a, b, rfl, ha, hb⟩, hc⟩

/-- The filter accepts what is not blocked. -/
theorem Lang.newFilter {fail succeed self : Graph} {F U S : Sym → Prop} {x : Sym} (df : Lang fail F fun s => ∃ y, F y ∧ s = [y])
    (du : Lang succeed U fun s => ∃ y, U y ∧ s = [y]) (ds : Lang self S fun s => s = [x]) (hSx : S x)
    (hS : ∀ y, F y ∨ U y ∨ S y → y.take 1 = ['_']) (required : Bool) :
    ∃ r, newFilter B fail succeed self required = .ok r ∧ Lang r (fun y => F y ∨ U y ∨ S y) fun s =>
      AllOrdinary s ∧ ¬ Blocked F U (· = x) (required = true) s := by
  have hany := Lang.anyStar hB
  obtain ⟨before, e1, d1⟩ := hany.concat hB df
  obtain ⟨c, e2, d2⟩ := du.contains hB
  obtain ⟨between, e3, d3⟩ := d2.complement hB (by
    rintro y hy ⟨a, b, c, e, _, ⟨z, hz, rfl⟩, _⟩
    have : y = z := by
      cases a with
      | nil => simpa using (List.cons.inj e).1
      | cons a0 a => simp at e
    exact hy (this ▸ hz))
  have d4 : Lang (if required then Trans.optionalize B (B.optimize before) else before) (fun y => False ∨ F y) fun s =>
      (∃ p y, s = p ++ [y] ∧ AllOrdinary p ∧ F y) ∨ required = true ∧ s = [] := by
    have hb : ∀ s, (∃ t u, s = t ++ u ∧ AllOrdinary t ∧ ∃ y, F y ∧ u = [y]) ↔ ∃ p y, s = p ++ [y] ∧ AllOrdinary p ∧ F y := by
      intro s
      constructor
      · rintro ⟨t, _, rfl, ht, y, hy, rfl⟩; exact ⟨t, y, rfl, ht, hy⟩
      · rintro ⟨t, y, rfl, ht, hy⟩; exact ⟨t, [y], rfl, ht, y, hy, rfl⟩
    cases required with
    | false =>
      refine d1.congr (fun _ => Iff.rfl) fun s => ?_
      rw [hb]
      simp
    | true =>
      refine ((d1.optimize hB).optionalize hB).congr (fun _ => Iff.rfl) fun s => ?_
      rw [hb]
      simp only [true_and]
      exact or_comm
  obtain ⟨r1, e5, d5⟩ := d4.concat hB d3
  obtain ⟨r2, e6, d6⟩ := d5.concat hB ds
  obtain ⟨r3, e7, d7⟩ := d6.concat hB hany
  have d8 : Lang (B.optimize (B.optimize r3)) (fun y => F y ∨ U y ∨ S y) fun s =>
      ∃ p m q, s = p ++ (m ++ x :: q) ∧ AllOrdinary q ∧ (AllOrdinary m ∧ ∀ y ∈ m, ¬ U y) ∧
        ((∃ p' y, p = p' ++ [y] ∧ AllOrdinary p' ∧ F y) ∨ required = true ∧ p = []) := by
    refine ((d7.optimize hB).optimize hB).congr (fun y => by tauto) fun s => ?_
    have hm : ∀ m, (AllOrdinary m ∧ ¬ ∃ a b c, m = a ++ (b ++ c) ∧ AllOrdinary a ∧ (∃ y, U y ∧ b = [y]) ∧ AllOrdinary c) ↔
        AllOrdinary m ∧ ∀ y ∈ m, ¬ U y := by
      intro m
      refine and_congr_right fun ho => ⟨fun h y hy hU => ?_, ?_⟩
      · obtain ⟨a, c, rfl⟩ := List.append_of_mem hy
        exact h ⟨a, [y], c, rfl, fun z hz => ho z (by simp [hz]), ⟨y, hU, rfl⟩, fun z hz => ho z (by simp [hz])⟩
      · rintro h ⟨a, _, c, rfl, _, ⟨y, hU, rfl⟩, _⟩
        exact h y (by simp) hU
    simp only [hm]
    constructor
    · rintro ⟨_, q, rfl, ⟨_, _, rfl, ⟨p, m, rfl, hp, hm⟩, rfl⟩, hq⟩
      exact ⟨p, m, q, by simp, hq, hm, hp⟩
    · rintro ⟨p, m, q, rfl, hq, hm, hp⟩
      exact ⟨p ++ m ++ [x], q, by simp, ⟨p ++ m, [x], rfl, ⟨p, m, rfl, hp, hm⟩, rfl⟩, hq⟩
  obtain ⟨r4, e9, d9⟩ := d8.complement hB (by
    rintro y hy ⟨p, m, q, e, _⟩
    have : y = x := by
      cases p with
      | nil =>
        cases m with
        | nil => simpa using (List.cons.inj e).1
        | cons a m => simp at e
      | cons a p => simp at e
    exact hy (.inr (.inr (this ▸ hSx))))
  refine ⟨convert ((((B.optimize r4).removeSymbol "Fail".toList).removeSymbol "Succeed".toList).removeSymbol "Self".toList), ?_, ?_⟩
  · unfold Trans.newFilter
    rw [e1]
    dsimp only [Outcome.bind]
    rw [e2]
    dsimp only
    rw [e3]
    dsimp only
    rw [e5]
    dsimp only
    rw [e6]
    dsimp only
    rw [e7]
    dsimp only
    rw [e9]
  · have d10 := d9.optimize hB
    have hrem : ∀ g : Graph, (∀ y, F y ∨ U y ∨ S y → y.take 1 = ['_']) → ∀ z : Sym, z.take 1 ≠ ['_'] → z ≠ epsilon → z ≠ unknown → z ≠ identity →
        ∀ {L : List Sym → Prop}, Lang g (fun y => F y ∨ U y ∨ S y) L → Lang (g.removeSymbol z) (fun y => F y ∨ U y ∨ S y) L := by
      intro g hS z hz n1 n2 n3 L dg
      have hz' : z ∉ g.alphabet := fun h => by
        rcases (dg.alphabet z).mp h with h | h | h | h
        · exact n1 h
        · exact n2 h
        · exact n3 h
        · exact hz (hS z h)
      have hsame : ∀ y, y ∈ (g.removeSymbol z).alphabet ↔ y ∈ g.alphabet := by
        intro y
        unfold Graph.removeSymbol
        dsimp only
        rw [mem_setErase]
        exact ⟨fun h => h.1, fun h => ⟨h, fun e => hz' (e ▸ h)⟩⟩
      exact dg.larger ⟨rfl, rfl, fun y hy => (hsame y).mpr hy⟩ hsame
    have d11 := hrem _ hS "Self".toList (by decide) (by decide) (by decide) (by decide)
      (hrem _ hS "Succeed".toList (by decide) (by decide) (by decide) (by decide)
      (hrem _ hS "Fail".toList (by decide) (by decide) (by decide) (by decide) d10))
    refine (d11.larger (larger_convert _) fun y => ?_).congr (fun _ => Iff.rfl) fun s => ?_
    · rw [mem_convert, d11.alphabet]
      generalize (y = epsilon) = a
      generalize (y = unknown) = b
      generalize (y = identity) = c
      tauto
    · refine and_congr_right fun ho => not_congr ?_
      constructor
      · rintro ⟨p, m, q, e, _, hm, hp⟩
        refine ⟨p, m, x, q, e, rfl, hm.2, ?_⟩
        rcases hp with ⟨p', y, e, _, hy⟩ | hp
        · exact .inl ⟨p', y, e, hy⟩
        · exact .inr hp
      · rintro ⟨p, m, _, q, rfl, rfl, hm, hp⟩
        refine ⟨p, m, q, rfl, fun z hz => ho z (by simp [hz]), ⟨fun z hz => ho z (by simp [hz]), hm⟩, ?_⟩
        rcases hp with ⟨p', y, rfl, hy⟩ | hp
        · exact .inl ⟨p', y, rfl, fun z hz => ho z (by simp [hz]), hy⟩
        · exact .inr hp

/-! ## The filters of all flags -/

omit hB in
theorem escapeFlag_ordinary (x : Sym) : Ordinary (escapeFlag x) ∧ isSpecial (escapeFlag x) = false ∧ escapeFlag x ≠ [] := by
  have hne : ∀ y : Sym, y[0]? ≠ some '_' → escapeFlag x ≠ y := fun y hy e => hy (e ▸ rfl)
  have hp : ∀ t : List Char, ('@' :: t).isPrefixOf (escapeFlag x) = false := by
    intro t
    unfold escapeFlag
    simp [List.isPrefixOf]
  refine ⟨⟨hne _ (by decide), hne _ (by decide), hne _ (by decide), ?_, ?_⟩, ?_, by simp [escapeFlag]⟩
  · by_contra h
    obtain ⟨o, f, v, _, e⟩ := (Flags.C01_isDiacritic_iff _).mp (by simpa using h)
    exact hne _ (by simp [Flags.spell]) e
  · unfold isPmatchSpecial
    split
    · rfl
    · rw [if_neg, if_neg]
      · unfold isList
        rw [show "@PMATCH".toList = '@' :: "PMATCH".toList from rfl, hp, hp, hp]
        rfl
      · rintro (h | h | h | h | h | h)
        · unfold isInsertion at h
          rw [hp] at h
          simp at h
        all_goals exact hne _ (by decide) h
      · rintro (h | h)
        all_goals exact hne _ (by decide) h
  · by_contra h
    obtain ⟨m, e⟩ := (isSpecial_iff _).mp (by simpa using h)
    simp [escapeFlag] at e

omit hB in
theorem escapeFlag_inj {x y : Sym} (h : escapeFlag x = escapeFlag y) : x = y := (List.cons.inj h).2

theorem Lang.flagUnion {xs : List Sym} {g : Graph} {S : Sym → Prop} {L : List Sym → Prop} (dg : Lang g S L) :
    ∃ r, flagUnion B xs g = .ok r ∧ Lang r (fun y => S y ∨ ∃ x ∈ xs, y = escapeFlag x) fun s => L s ∨ ∃ x ∈ xs, s = [escapeFlag x] := by
  induction xs generalizing g S L with
  | nil => exact ⟨g, rfl, dg.congr (fun y => by simp) fun s => by simp⟩
  | cons x xs ih =>
    obtain ⟨h1, h2, h3⟩ := escapeFlag_ordinary x
    obtain ⟨r, e, d⟩ := dg.disjunct hB (Lang.symbol h1 h2 h3)
    obtain ⟨r', e', d'⟩ := ih d
    refine ⟨r', ?_, d'.congr (fun y => ?_) fun s => ?_⟩
    · unfold Trans.flagUnion
      rw [e]
      exact e'
    · simp only [List.mem_cons, exists_eq_or_imp, or_assoc]
    · simp only [List.mem_cons, exists_eq_or_imp, or_assoc]

/-- The flags that the filter of `x` mentions. -/
def Mentions (flags : List Sym) (feature x y : Sym) : Prop :=
  y ∈ flagsWith .fail flags feature x ∨ y ∈ flagsWith .succeed flags feature x ∨ y = x

/-- The twice string with escaped flags is blocked. -/
def EscapedBlocked (flags : List Sym) (feature x : Sym) (s : List Sym) : Prop :=
  Blocked (fun y => ∃ z ∈ flagsWith .fail flags feature x, y = escapeFlag z)
    (fun y => ∃ z ∈ flagsWith .succeed flags feature x, y = escapeFlag z) (· = escapeFlag x) (flagOp x = .R) s

theorem Lang.filterFor (flags : List Sym) (feature x : Sym) :
    ∃ r, filterFor B flags feature x = .ok r ∧ Lang r (fun y => ∃ z, Mentions flags feature x z ∧ y = escapeFlag z) fun s =>
      AllOrdinary s ∧ ¬ EscapedBlocked flags feature x s := by
  obtain ⟨su, e1, d1⟩ := (Lang.nowhere).flagUnion hB (xs := flagsWith .succeed flags feature x)
  obtain ⟨fa, e2, d2⟩ := (Lang.nowhere).flagUnion hB (xs := flagsWith .fail flags feature x)
  obtain ⟨h1, h2, h3⟩ := escapeFlag_ordinary x
  have hlist : ∀ xs : List Sym, ∀ s, (False ∨ ∃ x ∈ xs, s = [escapeFlag x]) ↔ ∃ y, (∃ z ∈ xs, y = escapeFlag z) ∧ s = [y] := by
    intro xs s
    constructor
    · rintro (h | ⟨x, hx, rfl⟩)
      · exact h.elim
      · exact ⟨_, ⟨x, hx, rfl⟩, rfl⟩
    · rintro ⟨_, ⟨x, hx, rfl⟩, rfl⟩
      exact .inr ⟨x, hx, rfl⟩
  have d1' := d1.congr (fun y => iff_of_eq (false_or _)) (hlist _)
  have d2' := d2.congr (fun y => iff_of_eq (false_or _)) (hlist _)
  obtain ⟨r, e3, d3⟩ := Lang.newFilter hB d2' d1' (Lang.symbol h1 h2 h3) rfl (by
    rintro y (⟨z, _, rfl⟩ | ⟨z, _, rfl⟩ | rfl) <;> rfl) (decide (flagOp x = .R))
  refine ⟨r, ?_, d3.congr (fun y => ?_) fun s => ?_⟩
  · unfold Trans.filterFor
    rw [e1]
    dsimp only [Outcome.bind]
    rw [e2]
    exact e3
  · unfold Mentions
    constructor
    · rintro (⟨z, hz, rfl⟩ | ⟨z, hz, rfl⟩ | rfl)
      · exact ⟨z, .inl hz, rfl⟩
      · exact ⟨z, .inr (.inl hz), rfl⟩
      · exact ⟨x, .inr (.inr rfl), rfl⟩
    · rintro ⟨z, hz | hz | rfl, rfl⟩
      · exact .inl ⟨z, hz, rfl⟩
      · exact .inr (.inl ⟨z, hz, rfl⟩)
      · exact .inr (.inr rfl)
  · unfold EscapedBlocked
    simp only [decide_eq_true_eq]

theorem Lang.filterLoop_some (flags : List Sym) (feature : Sym) (xs : List Sym) {g : Graph} {S : Sym → Prop} {L : List Sym → Prop}
    (dg : Lang g S fun s => AllOrdinary s ∧ L s) :
    ∃ r, filterLoop B flags feature xs (some g) = .ok (some r) ∧
      Lang r (fun y => S y ∨ ∃ x ∈ xs, ∃ z, Mentions flags feature x z ∧ y = escapeFlag z) fun s =>
        AllOrdinary s ∧ L s ∧ ∀ x ∈ xs, ¬ EscapedBlocked flags feature x s := by
  induction xs generalizing g S L with
  | nil => exact ⟨g, rfl, dg.congr (fun y => by simp) fun s => by simp⟩
  | cons x xs ih =>
    obtain ⟨f, e1, d1⟩ := Lang.filterFor hB flags feature x
    obtain ⟨i, e2, d2⟩ := dg.intersect hB d1
    obtain ⟨r, e3, d3⟩ := ih (L := fun s => L s ∧ ¬ EscapedBlocked flags feature x s) (d2.congr (fun _ => Iff.rfl) fun s => by tauto)
    refine ⟨r, ?_, d3.congr (fun y => ?_) fun s => ?_⟩
    · unfold filterLoop
      rw [e1]
      dsimp only [Outcome.bind]
      rw [e2]
      exact e3
    · simp only [List.mem_cons, exists_eq_or_imp, or_assoc]
    · simp only [List.mem_cons, forall_eq_or_imp, and_assoc]

theorem Lang.filterLoop (flags : List Sym) (feature : Sym) (xs : List Sym) (hne : xs ≠ []) :
    ∃ r, filterLoop B flags feature xs none = .ok (some r) ∧
      Lang r (fun y => ∃ x ∈ xs, ∃ z, Mentions flags feature x z ∧ y = escapeFlag z) fun s =>
        AllOrdinary s ∧ ∀ x ∈ xs, ¬ EscapedBlocked flags feature x s := by
  cases xs with
  | nil => exact absurd rfl hne
  | cons x xs =>
    obtain ⟨f, e1, d1⟩ := Lang.filterFor hB flags feature x
    obtain ⟨r, e3, d3⟩ := Lang.filterLoop_some hB flags feature xs d1
    refine ⟨r, ?_, d3.congr (fun y => ?_) fun s => ?_⟩
    · unfold Trans.filterLoop
      rw [e1]
      exact e3
    · simp only [List.mem_cons, exists_eq_or_imp]
    · simp only [List.mem_cons, forall_eq_or_imp]

end

end Hfst.Trans
