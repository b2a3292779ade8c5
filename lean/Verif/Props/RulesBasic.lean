import Verif.Spec.Rules
import Verif.Props.TransducerCross

/-!
# Transducers made from sets of symbol pairs, and operations on plain transducers
-/
namespace Hfst.Trans
open Hfst.Basic Hfst.Lexc

/-- The symbols that count as special are those of the form `@_..._@`. -/
theorem isSpecial_iff (x : Sym) : isSpecial x = true ↔ ∃ m : List Char, x = ['@', '_'] ++ m ++ ['_', '@'] := by
  unfold isSpecial
  simp only [Bool.and_eq_true, decide_eq_true_eq]
  constructor
  · rintro ⟨⟨h1, h2⟩, h3⟩
    refine ⟨(x.take (x.length - 2)).drop 2, ?_⟩
    have e1 : x = x.take (x.length - 2) ++ ['_', '@'] := by rw [← h3]; exact (List.take_append_drop _ _).symm
    have e2 : (x.take (x.length - 2)).take 2 = ['@', '_'] := by
      rw [List.take_take, Nat.min_eq_left (by omega)]
      exact h2
    have e3 : x.take (x.length - 2) = ['@', '_'] ++ (x.take (x.length - 2)).drop 2 := by
      conv => lhs; rw [← List.take_append_drop 2 (x.take (x.length - 2)), e2]
    rw [← e3]
    exact e1
  · rintro ⟨m, rfl⟩
    refine ⟨⟨by simp, by simp⟩, ?_⟩
    have : (['@', '_'] ++ m ++ ['_', '@']).length - 2 = (['@', '_'] ++ m).length := by simp
    rw [this, List.drop_left]

/-! ## Sets of symbol pairs -/

theorem Literal.special {ps : List (Sym × Sym)} (h : Literal ps) {p : Sym × Sym} (hp : p ∈ ps) :
    (p.1 ≠ unknown ∧ p.1 ≠ identity) ∧ (p.2 ≠ unknown ∧ p.2 ≠ identity) := by
  obtain ⟨_, _, _, h1, h2⟩ := h p hp
  refine ⟨⟨?_, ?_⟩, ?_, ?_⟩
  · intro e; rw [e] at h1; exact absurd (h1 (by decide)) (by decide)
  · intro e; rw [e] at h1; exact absurd (h1 (by decide)) (by decide)
  · intro e; rw [e] at h2; exact absurd (h2 (by decide)) (by decide)
  · intro e; rw [e] at h2; exact absurd (h2 (by decide)) (by decide)

theorem st_literal {al : List Sym} {p q : Sym × Sym} (h1 : p.1 ≠ unknown ∧ p.1 ≠ identity) (h2 : p.2 ≠ unknown ∧ p.2 ≠ identity) :
    St al p q ↔ q = p := by
  obtain ⟨i, o⟩ := p
  obtain ⟨x, y⟩ := q
  rw [st_iff]
  dsimp only at h1 h2
  constructor
  · rintro (⟨e, _⟩ | ⟨_, _, ⟨e, _⟩ | ⟨_, rfl⟩, ⟨e', _⟩ | ⟨_, rfl⟩, _⟩)
    · exact absurd e h1.2
    · exact absurd e h1.1
    · exact absurd e h1.1
    · exact absurd e' h2.1
    · rfl
  · intro e
    cases e
    exact .inr ⟨h1.2, h2.2, .inr ⟨h1.1, rfl⟩, .inr ⟨h2.1, rfl⟩, fun e => absurd e h1.1⟩

theorem forall₂_literal {al : List Sym} {ps k l : List (Sym × Sym)} (h : Literal ps) (hk : Over ps k) :
    List.Forall₂ (St al) k l ↔ l = k := by
  induction k generalizing l with
  | nil => exact ⟨fun h => by cases h; rfl, fun e => by rw [e]; exact .nil⟩
  | cons p k ih =>
    have hp := h.special (hk p (by simp))
    have ih := fun l => ih (l := l) fun q hq => hk q (by simp [hq])
    constructor
    · intro hf
      cases hf with
      | cons h1 h2 => rw [(st_literal hp.1 hp.2).mp h1, (ih _).mp h2]
    · rintro rfl
      exact .cons ((st_literal hp.1 hp.2).mpr rfl) ((ih k).mpr rfl)

theorem strip_literal {ps k : List (Sym × Sym)} (h : Literal ps) (hk : Over ps k) : strip k = k := by
  unfold strip
  rw [List.filter_eq_self]
  intro p hp
  exact decide_eq_true (h p (hk p hp)).1

/-- The graph that `pairSet` makes, with the final state `t`. -/
def pairGraph (ps : List (Sym × Sym)) (t : Nat) : Graph :=
  ps.foldl (fun g p => g.addTransition 0 ⟨t, p.1, p.2, 0⟩)
    { states := List.replicate (t + 1) [], finals := [(t, 0)], alphabet := [epsilon, unknown, identity] }

theorem pairGraph_eq (ps : List (Sym × Sym)) (t : Nat) : pairGraph ps t =
    (ps.map fun p => ((0, ⟨t, p.1, p.2, 0⟩) : Nat × Arc)).foldl (fun g e => g.addTransition e.1 e.2)
      { states := List.replicate (t + 1) [], finals := [(t, 0)], alphabet := [epsilon, unknown, identity] } := by
  rw [List.foldl_map]
  rfl

theorem pairGraph_arcs (ps : List (Sym × Sym)) (t s : Nat) (a : Arc) :
    a ∈ (pairGraph ps t).arcs s ↔ s = 0 ∧ ∃ p ∈ ps, a = ⟨t, p.1, p.2, 0⟩ := by
  rw [pairGraph_eq, Graph.foldl_addTransition_arcs]
  have : ({ states := List.replicate (t + 1) [], finals := [(t, 0)], alphabet := [epsilon, unknown, identity] } : Graph).arcs s
      = [] := by
    unfold Graph.arcs
    dsimp only
    rw [List.getElem?_replicate]
    split <;> rfl
  rw [this]
  simp only [List.nil_append, List.mem_map, List.mem_filter, decide_eq_true_eq]
  constructor
  · rintro ⟨_, ⟨⟨p, hp, rfl⟩, h2⟩, rfl⟩
    exact ⟨h2.symm, p, hp, rfl⟩
  · rintro ⟨rfl, p, hp, rfl⟩
    exact ⟨_, ⟨⟨p, hp, rfl⟩, rfl⟩, rfl⟩

theorem pairGraph_finals (ps : List (Sym × Sym)) (t : Nat) : (pairGraph ps t).finals = [(t, 0)] := by
  unfold pairGraph
  generalize hg : ({ states := List.replicate (t + 1) [], finals := [(t, 0)], alphabet := [epsilon, unknown, identity] } : Graph) = g
  have : g.finals = [(t, 0)] := by rw [← hg]
  clear hg
  induction ps generalizing g with
  | nil => exact this
  | cons p ps ih => exact ih _ ((finals_addTransition ..).trans this)

theorem pairGraph_final (ps : List (Sym × Sym)) (t s : Nat) (w : Int) : (pairGraph ps t).final s = some w ↔ s = t ∧ w = 0 := by
  have hf : FinalMap (pairGraph ps t) := by
    unfold FinalMap
    rw [pairGraph_finals]
    simp
  rw [hf.iff, pairGraph_finals]
  simp

theorem pairGraph_alphabet (ps : List (Sym × Sym)) (t : Nat) (x : Sym) : x ∈ (pairGraph ps t).alphabet ↔
    (x = epsilon ∨ x = unknown ∨ x = identity) ∨ ∃ p ∈ ps, x = p.1 ∨ x = p.2 := by
  rw [pairGraph_eq, Graph.foldl_addTransition_alphabet]
  simp

theorem pairGraph_usual {ps : List (Sym × Sym)} (h : Literal ps) (t : Nat) : Usual (pairGraph ps t) := by
  have hlen : t < (pairGraph ps t).states.length := by
    have := (Graph.foldl_addTransition_length_ge (ps.map fun p => ((0, ⟨t, p.1, p.2, 0⟩) : Nat × Arc))
      { states := List.replicate (t + 1) [], finals := [(t, 0)], alphabet := [epsilon, unknown, identity] }).1
    rw [pairGraph_eq]
    simp only [List.length_replicate] at this
    omega
  refine ⟨⟨⟨by omega, ?_, ?_⟩, ⟨?_, ?_, ?_, ?_⟩, ?_⟩, ?_, ?_⟩
  · intro s a ha
    obtain ⟨_, p, _, rfl⟩ := (pairGraph_arcs ..).mp ha
    exact hlen
  · intro s w hw
    rw [((pairGraph_final ..).mp hw).1]
    exact hlen
  · intro s a ha
    obtain ⟨_, p, hp, rfl⟩ := (pairGraph_arcs ..).mp ha
    exact ⟨(pairGraph_alphabet ..).mpr (.inr ⟨p, hp, .inl rfl⟩), (pairGraph_alphabet ..).mpr (.inr ⟨p, hp, .inr rfl⟩)⟩
  · rw [pairGraph_alphabet]; simp
  · rw [pairGraph_alphabet]; simp
  · rw [pairGraph_alphabet]; simp
  · unfold FinalMap; rw [pairGraph_finals]; simp
  · intro s a ha
    obtain ⟨_, p, hp, rfl⟩ := (pairGraph_arcs ..).mp ha
    have := h.special hp
    exact ⟨fun e => absurd e this.1.2, fun e => absurd e this.2.2⟩
  · rw [pairGraph_alphabet]
    rintro ((e | e | e) | ⟨p, hp, e | e⟩)
    · exact absurd e (by decide)
    · exact absurd e (by decide)
    · exact absurd e (by decide)
    · exact (h p hp).2.1 e.symm
    · exact (h p hp).2.2.1 e.symm

theorem pairGraph_plain {ps : List (Sym × Sym)} (h : Literal ps) (t : Nat) : Plain (pairGraph ps t) := by
  intro x hx hm
  rcases (pairGraph_alphabet ..).mp hm with e | ⟨p, hp, rfl | rfl⟩
  · exact e
  · exact .inl ((h p hp).2.2.2.1 hx)
  · exact .inl ((h p hp).2.2.2.2 hx)

theorem pairGraph_path {ps : List (Sym × Sym)} {t s q : Nat} {l : List (Sym × Sym)} {v : Int}
    (h : Path (pairGraph ps t) s l v q) : Over ps l ∧ v = 0 := by
  induction h with
  | nil => exact ⟨fun p hp => absurd hp (by simp), rfl⟩
  | cons ha _ ih =>
    obtain ⟨rfl, p, hp, rfl⟩ := (pairGraph_arcs ..).mp ha
    refine ⟨fun q hq => ?_, by rw [ih.2]; rfl⟩
    rcases List.mem_cons.mp hq with rfl | hq
    · exact hp
    · exact ih.1 q hq

theorem pairGraph_means {ps : List (Sym × Sym)} (h : Literal ps) (t : Nat) (l : List (Sym × Sym)) (w : Int) :
    Means (pairGraph ps t) l w ↔ Accepts (pairGraph ps t) l 0 ∧ 0 ≤ w := by
  have hacc : ∀ {l v}, Accepts (pairGraph ps t) l v → Over ps l ∧ v = 0 := by
    rintro l v ⟨q, v, f, hp, hf, rfl⟩
    obtain ⟨h1, rfl⟩ := pairGraph_path hp
    obtain ⟨_, rfl⟩ := (pairGraph_final ..).mp hf
    exact ⟨h1, rfl⟩
  rw [means_iff]
  constructor
  · rintro ⟨k, ⟨k', v, ha, rfl, hv⟩, hf⟩
    obtain ⟨h1, rfl⟩ := hacc ha
    rw [strip_literal h h1] at hf
    rw [(forall₂_literal h h1).mp hf]
    exact ⟨ha, hv⟩
  · rintro ⟨ha, hw⟩
    have h1 := (hacc ha).1
    exact ⟨l, ⟨l, 0, ha, strip_literal h h1, hw⟩, (forall₂_literal h h1).mpr rfl⟩

theorem pairGraph_cyclic {ps : List (Sym × Sym)} (h : Literal ps) (l : List (Sym × Sym)) (w : Int) :
    Means (pairGraph ps 0) l w ↔ Over ps l ∧ 0 ≤ w := by
  rw [pairGraph_means h]
  refine and_congr_left fun _ => ?_
  constructor
  · rintro ⟨q, v, f, hp, _, _⟩
    exact (pairGraph_path hp).1
  · intro ho
    refine ⟨0, 0, 0, ?_, (pairGraph_final ..).mpr ⟨rfl, rfl⟩, rfl⟩
    induction l with
    | nil => exact .nil 0
    | cons p l ih =>
      exact Path.cons (a := ⟨0, p.1, p.2, 0⟩) ((pairGraph_arcs ..).mpr ⟨rfl, p, ho p (by simp), rfl⟩)
        (ih fun q hq => ho q (by simp [hq]))

theorem pairGraph_one {ps : List (Sym × Sym)} (h : Literal ps) (l : List (Sym × Sym)) (w : Int) :
    Means (pairGraph ps 1) l w ↔ (∃ p ∈ ps, l = [p]) ∧ 0 ≤ w := by
  rw [pairGraph_means h]
  refine and_congr_left fun _ => ?_
  constructor
  · rintro ⟨q, v, f, hp, hf, _⟩
    obtain ⟨rfl, _⟩ := (pairGraph_final ..).mp hf
    generalize hs : 0 = s at hp
    generalize hq : 1 = q at hp
    cases hp with
    | nil => omega
    | cons ha hp =>
      obtain ⟨_, p, hp', rfl⟩ := (pairGraph_arcs ..).mp ha
      cases hp with
      | nil => exact ⟨p, hp', rfl⟩
      | cons ha _ => exact absurd ((pairGraph_arcs ..).mp ha).1 (by rw [← hq]; simp)
  · rintro ⟨p, hp, rfl⟩
    refine ⟨1, 0, 0, ?_, (pairGraph_final ..).mpr ⟨rfl, rfl⟩, rfl⟩
    exact Path.cons (a := ⟨1, p.1, p.2, 0⟩) ((pairGraph_arcs ..).mpr ⟨rfl, p, hp, rfl⟩) (.nil 1)

/-! ## Plain transducers and their meaning -/

/-- `g` is a plain transducer with the sequences and weights of `L`. -/
structure Den (g : Graph) (L : List (Sym × Sym) → Int → Prop) : Prop where
  usual : Usual g
  plain : Plain g
  means : ∀ l w, Means g l w ↔ L l w

theorem Den.self {g : Graph} (hg : Usual g) (hp : Plain g) : Den g (Means g) := ⟨hg, hp, fun _ _ => Iff.rfl⟩

theorem Den.congr {g : Graph} {L M : List (Sym × Sym) → Int → Prop} (h : Den g L) (hi : ∀ l w, L l w ↔ M l w) : Den g M :=
  ⟨h.usual, h.plain, fun l w => (h.means l w).trans (hi l w)⟩

theorem pairSet_ok {ps : List (Sym × Sym)} (h : Literal ps) (c : Bool) :
    pairSet ps c = .ok (pairGraph ps (if !ps.isEmpty && !c then 1 else 0)) := by
  unfold pairSet
  rw [if_neg]
  · rfl
  · simp only [List.any_eq_true, Bool.or_eq_true, List.isEmpty_iff]
    rintro ⟨p, hp, e | e⟩
    · exact (h p hp).2.1 e
    · exact (h p hp).2.2.1 e

/-- A cyclic set: all sequences of its pairs. -/
theorem pairSet_cyclic {ps : List (Sym × Sym)} (h : Literal ps) :
    ∃ g, pairSet ps true = .ok g ∧ Den g fun l w => Over ps l ∧ 0 ≤ w := by
  refine ⟨_, pairSet_ok h true, ?_⟩
  simp only [Bool.not_true, Bool.and_false, Bool.false_eq_true, if_false]
  exact ⟨pairGraph_usual h 0, pairGraph_plain h 0, pairGraph_cyclic h⟩

/-- A set that is not empty: the sequences of one of its pairs. -/
theorem pairSet_one {ps : List (Sym × Sym)} (h : Literal ps) (hne : ps ≠ []) :
    ∃ g, pairSet ps = .ok g ∧ Den g fun l w => (∃ p ∈ ps, l = [p]) ∧ 0 ≤ w := by
  refine ⟨_, pairSet_ok h false, ?_⟩
  rw [if_pos (by simpa using hne)]
  exact ⟨pairGraph_usual h 1, pairGraph_plain h 1, pairGraph_one h⟩

/-- An empty set does not give an empty transducer, but one that accepts the empty sequence. -/
theorem pairSet_nil : ∃ g, pairSet [] = .ok g ∧ Den g fun l w => l = [] ∧ 0 ≤ w := by
  have h : Literal [] := fun p hp => by cases hp
  refine ⟨_, pairSet_ok h false, ?_⟩
  refine (⟨pairGraph_usual h 0, pairGraph_plain h 0, pairGraph_cyclic h⟩ : Den (pairGraph [] 0) _).congr fun l w => ?_
  refine and_congr_left fun _ => ⟨fun ho => ?_, fun e => by rw [e]; exact fun p hp => hp⟩
  cases l with
  | nil => rfl
  | cons p l => exact absurd (ho p (by simp)) (by simp)

section
variable {B : Backend} (hB : B.Ok)
include hB

omit hB in
theorem Den.specials {g h : Graph} {L M : List (Sym × Sym) → Int → Prop} (dg : Den g L) (dh : Den h M) : SameSpecials g h :=
  dg.plain.same dh.plain dg.usual.good dh.usual.good

omit hB in
theorem Plain.union {g h r : Graph} (pg : Plain g) (ph : Plain h)
    (hal : ∀ x, x ∈ r.alphabet ↔ x ∈ g.alphabet ∨ x ∈ h.alphabet) : Plain r :=
  fun x hx hm => ((hal x).mp hm).elim (pg x hx) (ph x hx)

/-- Two languages one after the other. -/
def Cat (L M : List (Sym × Sym) → Int → Prop) (l : List (Sym × Sym)) (w : Int) : Prop :=
  ∃ l₁ l₂ w₁ w₂, L l₁ w₁ ∧ M l₂ w₂ ∧ l = l₁ ++ l₂ ∧ w₁ + w₂ ≤ w

omit hB in
theorem cat_any {L M : List (Sym × Sym) → Int → Prop} {l : List (Sym × Sym)} :
    (∃ v, Cat L M l v) ↔ ∃ l₁ l₂, l = l₁ ++ l₂ ∧ (∃ v, L l₁ v) ∧ ∃ v, M l₂ v := by
  constructor
  · rintro ⟨v, l₁, l₂, w₁, w₂, h1, h2, h3, _⟩
    exact ⟨l₁, l₂, h3, ⟨w₁, h1⟩, w₂, h2⟩
  · rintro ⟨l₁, l₂, h3, ⟨w₁, h1⟩, w₂, h2⟩
    exact ⟨w₁ + w₂, l₁, l₂, w₁, w₂, h1, h2, h3, Int.le_refl _⟩

theorem Den.concat {g h : Graph} {L M : List (Sym × Sym) → Int → Prop} (dg : Den g L) (dh : Den h M) :
    ∃ r, concatenate B g h = .ok r ∧ Den r (Cat L M) := by
  obtain ⟨r, h1, h2, h3, h4⟩ := C73_concatenate hB g h dg.usual dh.usual (dg.specials dh)
  refine ⟨r, h1, h2, Plain.union dg.plain dh.plain h3, fun l w => ?_⟩
  rw [h4]
  simp only [dg.means, dh.means, Cat]

theorem Den.disjunct {g h : Graph} {L M : List (Sym × Sym) → Int → Prop} (dg : Den g L) (dh : Den h M) :
    ∃ r, disjunct B g h = .ok r ∧ Den r fun l w => L l w ∨ M l w := by
  obtain ⟨r, h1, h2, h3, h4⟩ := C73_disjunct hB g h dg.usual dh.usual (dg.specials dh)
  refine ⟨r, h1, h2, Plain.union dg.plain dh.plain h3, fun l w => ?_⟩
  rw [h4, dg.means, dh.means]

theorem Den.subtract {g h : Graph} {L M : List (Sym × Sym) → Int → Prop} (dg : Den g L) (dh : Den h M) :
    ∃ r, subtract B g h = .ok r ∧ Den r fun l w => L l w ∧ ¬ ∃ v, M l v := by
  obtain ⟨r, h1, h2, h3, h4⟩ := C73_subtract hB g h dg.usual dh.usual (dg.specials dh)
  refine ⟨r, h1, h2, Plain.union dg.plain dh.plain h3, fun l w => ?_⟩
  rw [h4, dg.means]
  simp only [dh.means, not_exists]

theorem Den.intersect {g h : Graph} {L M : List (Sym × Sym) → Int → Prop} (dg : Den g L) (dh : Den h M) :
    ∃ r, intersect B g h = .ok r ∧ Den r fun l w => ∃ w₁ w₂, L l w₁ ∧ M l w₂ ∧ w₁ + w₂ ≤ w := by
  obtain ⟨r, h1, h2, h3, h4⟩ := C73_intersect hB g h dg.usual dh.usual (dg.specials dh)
  refine ⟨r, h1, h2, Plain.union dg.plain dh.plain h3, fun l w => ?_⟩
  rw [h4]
  simp only [dg.means, dh.means]

theorem Den.star {g : Graph} {L : List (Sym × Sym) → Int → Prop} (dg : Den g L) : Den (B.star g) (Star L) := by
  obtain ⟨h1, h2, h3⟩ := C73_star hB g dg.usual
  refine ⟨h1, dg.plain.mono fun x hx => (h2 x).mp hx, fun l w => ?_⟩
  rw [h3]
  have : Means g = L := by
    funext l w
    exact propext (dg.means l w)
  rw [this]

end

end Hfst.Trans
