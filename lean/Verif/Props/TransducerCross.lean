import Verif.Props.TransducerDemo

/-!
# C75: cross product
-/
namespace Hfst.Trans
open Hfst.Basic Hfst.Lexc

/-- The transducer accepts only pairs of equal symbols. -/
def Automaton (g : Graph) : Prop := ∀ l w, Means g l w → ∀ p ∈ l, p.1 = p.2

/-- Two strings side by side, with epsilons at the end of the shorter one. -/
def padded : List Sym → List Sym → List (Sym × Sym)
  | [], [] => []
  | x :: s, [] => (x, epsilon) :: padded s []
  | [], y :: t => (epsilon, y) :: padded [] t
  | x :: s, y :: t => (x, y) :: padded s t

/-! ## Alphabets -/

theorem st_of_outside {al al' : List Sym} {p q : Sym × Sym} (h : ∀ x, x = q.1 ∨ x = q.2 → Outside al x → Outside al' x)
    (hs : St al p q) : St al' p q := by
  obtain ⟨i, o⟩ := p
  obtain ⟨x, y⟩ := q
  have hx := h x (.inl rfl)
  have hy := h y (.inr rfl)
  rcases st_iff.mp hs with ⟨h1, h2, h3, h4⟩ | ⟨h1, h2, h3, h4, h5⟩
  · exact st_iff.mpr (.inl ⟨h1, h2, h3, hx h4⟩)
  · exact st_iff.mpr (.inr ⟨h1, h2, h3.imp (fun e => ⟨e.1, hx e.2⟩) id, h4.imp (fun e => ⟨e.1, hy e.2⟩) id, h5⟩)

/-- A symbol of a sequence of pairs that is in the alphabet of the transducer or an ordinary symbol outside it. -/
theorem st_mem {al : List Sym} {p q : Sym × Sym} (hp : p.1 ∈ al ∧ p.2 ∈ al) (h : St al p q) :
    (q.1 ∈ al ∨ Outside al q.1) ∧ (q.2 ∈ al ∨ Outside al q.2) := by
  obtain ⟨i, o⟩ := p
  obtain ⟨x, y⟩ := q
  rcases st_iff.mp h with ⟨_, _, rfl, h4⟩ | ⟨_, _, h3, h4, _⟩
  · exact ⟨.inr h4, .inr h4⟩
  · refine ⟨?_, ?_⟩
    · rcases h3 with h3 | ⟨_, rfl⟩
      · exact .inr h3.2
      · exact .inl hp.1
    · rcases h4 with h4 | ⟨_, rfl⟩
      · exact .inr h4.2
      · exact .inl hp.2

theorem forall₂_right {α β : Type} {R : α → β → Prop} {k : List α} {l : List β} (h : List.Forall₂ R k l) {y : β} (hy : y ∈ l) :
    ∃ x ∈ k, R x y := by
  induction h with
  | nil => cases hy
  | cons h1 _ ih =>
    rcases List.mem_cons.mp hy with rfl | hy
    · exact ⟨_, by simp, h1⟩
    · obtain ⟨x, hx, hr⟩ := ih hy
      exact ⟨x, by simp [hx], hr⟩

theorem forall₂_imp_mem {α β : Type} {R S : α → β → Prop} {k : List α} {l : List β} (h : List.Forall₂ R k l)
    (hi : ∀ x y, y ∈ l → R x y → S x y) : List.Forall₂ S k l := by
  induction h with
  | nil => exact .nil
  | cons h1 _ ih => exact .cons (hi _ _ (by simp) h1) (ih fun x y hy => hi x y (by simp [hy]))

/-- Adding a symbol that the transducer does not know takes the sequences with that symbol away. -/
theorem addSymbol_means {g : Graph} (hg : Usual g) {m : Sym} (hm : m ∉ g.alphabet) (hne : m ≠ []) : Usual (g.addSymbol m) ∧
    (∀ x, x ∈ (g.addSymbol m).alphabet ↔ x ∈ g.alphabet ∨ x = m) ∧
    ∀ l w, Means (g.addSymbol m) l w ↔ Means g l w ∧ ∀ p ∈ l, p.1 ≠ m ∧ p.2 ≠ m := by
  have hlarge : Larger g (g.addSymbol m) := larger_addSymbols g [m]
  have hal : ∀ x, x ∈ (g.addSymbol m).alphabet ↔ x ∈ g.alphabet ∨ x = m := by
    intro x
    have : x ∈ (g.addSymbols [m]).alphabet ↔ x ∈ g.alphabet ∨ x ∈ [m] := mem_alphabet_addSymbols
    rw [List.mem_singleton] at this
    exact this
  refine ⟨⟨hlarge.good hg.good, paired_of_labels fun p hp => label_paired hg.paired ((hlarge.label p).mp hp), ?_⟩, hal, ?_⟩
  · rw [hal]
    rintro (h | h)
    · exact hg.nonempty h
    · exact hne h.symm
  intro l w
  have hc : ∀ k, Cost (g.addSymbol m) k w ↔ Cost g k w := by
    intro k
    unfold Cost
    simp only [hlarge.accepts]
  rw [means_iff, means_iff]
  constructor
  · rintro ⟨k, h1, h2⟩
    have hk := (hc k).mp h1
    refine ⟨⟨k, hk, h2.imp fun p q h => st_of_outside (fun x _ ho => ⟨ho.1, fun e => ho.2 ((hal x).mpr (.inl e))⟩) h⟩, ?_⟩
    intro q hq
    obtain ⟨p, hp, hpq⟩ := forall₂_right h2 hq
    obtain ⟨a1, a2⟩ := hg.cost_alpha hk p hp
    obtain ⟨i, o⟩ := p
    obtain ⟨x, y⟩ := q
    dsimp only at a1 a2 ⊢
    rcases st_iff.mp hpq with ⟨_, _, rfl, h4⟩ | ⟨_, _, h3, h4, _⟩
    · exact ⟨fun e => h4.2 ((hal x).mpr (.inr e)), fun e => h4.2 ((hal x).mpr (.inr e))⟩
    · refine ⟨?_, ?_⟩
      · rcases h3 with h3 | ⟨_, rfl⟩
        · exact fun e => h3.2.2 ((hal _).mpr (.inr e))
        · exact fun e => hm (e ▸ a1)
      · rcases h4 with h4 | ⟨_, rfl⟩
        · exact fun e => h4.2.2 ((hal _).mpr (.inr e))
        · exact fun e => hm (e ▸ a2)
  · rintro ⟨⟨k, h1, h2⟩, hfree⟩
    refine ⟨k, (hc k).mpr h1, forall₂_imp_mem h2 fun p q hq h => st_of_outside (fun x hx ho => ⟨ho.1, fun e => ?_⟩) h⟩
    rcases (hal x).mp e with e | e
    · exact ho.2 e
    · rcases hx with hx | hx
      · exact (hfree q hq).1 (hx ▸ e)
      · exact (hfree q hq).2 (hx ▸ e)

/-! ## The transducers with the mark -/

/-- The symbols of the form `@_..._@` are the usual ones and the mark. -/
def Marked (g : Graph) : Prop :=
  mark ∈ g.alphabet ∧ ∀ x, isSpecial x = true → x ∈ g.alphabet → x = epsilon ∨ x = unknown ∨ x = identity ∨ x = mark

theorem Marked.same {g h : Graph} (hg : Marked g) (hh : Marked h) (ug : Usual g) (uh : Usual h) : SameSpecials g h := by
  intro x hx
  constructor
  · intro h1
    rcases hg.2 x hx h1 with rfl | rfl | rfl | rfl
    · exact uh.good.alpha.eps
    · exact uh.good.alpha.unk
    · exact uh.good.alpha.idn
    · exact hh.1
  · intro h1
    rcases hh.2 x hx h1 with rfl | rfl | rfl | rfl
    · exact ug.good.alpha.eps
    · exact ug.good.alpha.unk
    · exact ug.good.alpha.idn
    · exact hg.1

theorem Marked.union {g h r : Graph} (hg : Marked g) (hh : Marked h)
    (hr : ∀ x, x ∈ r.alphabet ↔ x ∈ g.alphabet ∨ x ∈ h.alphabet) : Marked r :=
  ⟨(hr _).mpr (.inl hg.1), fun x hx hm => ((hr x).mp hm).elim (hg.2 x hx) (hh.2 x hx)⟩

theorem Marked.congr {g r : Graph} (hg : Marked g) (hr : Same r g) : Marked r :=
  ⟨(hr _).mpr hg.1, fun x hx hm => hg.2 x hx ((hr x).mp hm)⟩

theorem mark_ne : mark ≠ epsilon ∧ mark ≠ unknown ∧ mark ≠ identity ∧ mark ≠ [] := by decide

theorem single_marked {x : Sym} (hx : x = epsilon ∨ x = unknown ∨ x = identity ∨ x = mark) : Marked (single x mark) := by
  refine ⟨(single_alphabet ..).mpr (by simp), fun z _ hz => ?_⟩
  rcases (single_alphabet ..).mp hz with e | e | e | e | e
  · exact .inl e
  · exact .inr (.inl e)
  · exact .inr (.inr (.inl e))
  · rw [e]; exact hx
  · exact .inr (.inr (.inr e))

/-- What the unknown symbol stands for beside the mark. -/
def U (x : Sym) : Prop := Ordinary x ∧ x ≠ mark

theorem star_single {L : List (Sym × Sym) → Int → Prop} {P : Sym × Sym → Prop}
    (hL : ∀ l w, L l w ↔ 0 ≤ w ∧ ∃ q, l = [q] ∧ P q) (l : List (Sym × Sym)) (w : Int) :
    Star L l w ↔ 0 ≤ w ∧ ∀ p ∈ l, P p := by
  constructor
  · intro h
    induction h with
    | nil hw => exact ⟨hw, by simp⟩
    | cons h _ ih =>
      obtain ⟨h1, x, rfl, hx⟩ := (hL _ _).mp h
      refine ⟨by omega, ?_⟩
      intro p hp
      rw [List.singleton_append, List.mem_cons] at hp
      rcases hp with rfl | hp
      · exact hx
      · exact ih.2 p hp
  · rintro ⟨hw, h⟩
    induction l with
    | nil => exact .nil hw
    | cons p l ih =>
      have := Star.cons ((hL [p] 0).mpr ⟨Int.le_refl _, p, rfl, h p (by simp)⟩) (ih fun p hp => h p (by simp [hp]))
      rwa [Int.zero_add] at this

theorem unknown_mark_st {q : Sym × Sym} :
    St [epsilon, unknown, identity, unknown, mark] (unknown, mark) q ↔ U q.1 ∧ q.2 = mark := by
  obtain ⟨x, y⟩ := q
  have hout : Outside [epsilon, unknown, identity, unknown, mark] x ↔ U x := by
    unfold Outside U
    refine and_congr_right fun h => ?_
    simp only [List.mem_cons, List.not_mem_nil, or_false]
    constructor
    · exact fun hn e => hn (.inr (.inr (.inr (.inr e))))
    · rintro hn (e | e | e | e | e)
      · exact h.1 e
      · exact h.2.1 e
      · exact h.2.2.1 e
      · exact h.2.1 e
      · exact hn e
  rw [st_iff, hout]
  have := mark_ne
  constructor
  · rintro (⟨h, _⟩ | ⟨_, _, ⟨_, h⟩ | ⟨h, _⟩, ⟨h', _⟩ | ⟨_, h'⟩, _⟩)
    · exact absurd h (by decide)
    · exact absurd h' this.2.1
    · exact ⟨h, h'⟩
    · exact absurd rfl h
    · exact absurd rfl h
  · rintro ⟨h, e⟩
    exact .inr ⟨by decide, this.2.2.1, .inl ⟨rfl, h⟩, .inr ⟨this.2.1, e⟩, fun _ e => absurd e this.2.1⟩

theorem epsilon_mark_st {q : Sym × Sym} :
    St [epsilon, unknown, identity, epsilon, mark] (epsilon, mark) q ↔ q = (epsilon, mark) := by
  obtain ⟨x, y⟩ := q
  have := mark_ne
  rw [st_iff]
  constructor
  · rintro (⟨h, _⟩ | ⟨_, _, ⟨h, _⟩ | ⟨_, h⟩, ⟨h', _⟩ | ⟨_, h'⟩, _⟩)
    · exact absurd h (by decide)
    · exact absurd h (by decide)
    · exact absurd h (by decide)
    · exact absurd h' this.2.1
    · rw [h, h']
  · intro e
    obtain ⟨rfl, rfl⟩ := Prod.mk.inj e
    exact .inr ⟨by decide, this.2.2.1, .inr ⟨by decide, rfl⟩, .inr ⟨this.2.1, rfl⟩, fun e => absurd e (by decide)⟩

section
variable {B : Backend} (hB : B.Ok)
include hB

/-- What a star of one pair accepts. -/
theorem starOf {g : Graph} (hg : Usual g) (mg : Marked g) {P : Sym × Sym → Prop}
    (hm : ∀ l w, Means g l w ↔ 0 ≤ w ∧ ∃ q, l = [q] ∧ P q) :
    Usual (B.optimize (B.star g)) ∧ Marked (B.optimize (B.star g)) ∧ Same (B.optimize (B.star g)) g ∧
      ∀ l w, Means (B.optimize (B.star g)) l w ↔ 0 ≤ w ∧ ∀ p ∈ l, P p := by
  obtain ⟨u1, s1, m1⟩ := C73_star hB g hg
  obtain ⟨u2, s2, m2⟩ := optimize_means hB u1
  refine ⟨u2, (mg.congr s1).congr s2, fun x => (s2 x).trans (s1 x), fun l w => ?_⟩
  rw [m2, m1, star_single hm]

theorem unknownStar : Usual (markStar B unknown mark) ∧ Marked (markStar B unknown mark) ∧
    (∀ x, x ∈ (markStar B unknown mark).alphabet → x = epsilon ∨ x = unknown ∨ x = identity ∨ x = mark) ∧
    ∀ l w, Means (markStar B unknown mark) l w ↔ 0 ≤ w ∧ ∀ p ∈ l, U p.1 ∧ p.2 = mark := by
  obtain ⟨a, b, c, d⟩ := starOf hB (g := single unknown mark) (single_usual (by decide) mark_ne.2.2.2 (by decide))
    (single_marked (.inr (.inl rfl))) (P := fun q => U q.1 ∧ q.2 = mark) (fun l w => by
      rw [single_means (by decide)]
      refine and_congr_right fun _ => exists_congr fun q => and_congr_right fun _ => unknown_mark_st)
  refine ⟨a, b, fun x hx => ?_, d⟩
  rcases (single_alphabet ..).mp ((c x).mp hx) with e | e | e | e | e
  · exact .inl e
  · exact .inr (.inl e)
  · exact .inr (.inr (.inl e))
  · exact .inr (.inl e)
  · exact .inr (.inr (.inr e))

theorem epsilonStar : Usual (markStar B epsilon mark) ∧ Marked (markStar B epsilon mark) ∧
    (∀ x, x ∈ (markStar B epsilon mark).alphabet → x = epsilon ∨ x = unknown ∨ x = identity ∨ x = mark) ∧
    ∀ l w, Means (markStar B epsilon mark) l w ↔ 0 ≤ w ∧ ∀ p ∈ l, p = (epsilon, mark) := by
  obtain ⟨a, b, c, d⟩ := starOf hB (g := single epsilon mark) (single_usual (by decide) mark_ne.2.2.2 (by decide))
    (single_marked (.inl rfl)) (P := fun q => q = (epsilon, mark)) (fun l w => by
      rw [single_means (by decide)]
      refine and_congr_right fun _ => exists_congr fun q => and_congr_right fun _ => epsilon_mark_st)
  refine ⟨a, b, fun x hx => ?_, d⟩
  rcases (single_alphabet ..).mp ((c x).mp hx) with e | e | e | e | e
  · exact .inl e
  · exact .inr (.inl e)
  · exact .inr (.inr (.inl e))
  · exact .inl e
  · exact .inr (.inr (.inr e))

omit hB in
theorem swap_one {l : List (Sym × Sym)} {q : Sym × Sym} : l.map Prod.swap = [q] ↔ l = [q.swap] := by
  constructor
  · intro h
    have := congrArg (List.map Prod.swap) h
    rw [List.map_map] at this
    simpa using this
  · rintro rfl
    simp

theorem unknownStar' : Usual (B.optimize (B.star (B.invert (single unknown mark)))) ∧
    Marked (B.optimize (B.star (B.invert (single unknown mark)))) ∧
    (∀ x, x ∈ (B.optimize (B.star (B.invert (single unknown mark)))).alphabet → x = epsilon ∨ x = unknown ∨ x = identity ∨ x = mark) ∧
    ∀ l w, Means (B.optimize (B.star (B.invert (single unknown mark)))) l w ↔ 0 ≤ w ∧ ∀ p ∈ l, U p.2 ∧ p.1 = mark := by
  have us : Usual (single unknown mark) := single_usual (by decide) mark_ne.2.2.2 (by decide)
  obtain ⟨ui, si, mi⟩ := C73_invert hB (single unknown mark) us
  obtain ⟨a, b, c, d⟩ := starOf hB ui ((single_marked (.inr (.inl rfl))).congr si) (P := fun q => U q.2 ∧ q.1 = mark) (fun l w => by
      rw [mi, single_means (by decide)]
      refine and_congr_right fun _ => ?_
      constructor
      · rintro ⟨q, h1, h2⟩
        exact ⟨q.swap, swap_one.mp h1, unknown_mark_st.mp h2⟩
      · rintro ⟨q, rfl, h2⟩
        exact ⟨q.swap, rfl, unknown_mark_st.mpr h2⟩)
  refine ⟨a, b, fun x hx => ?_, d⟩
  rcases (single_alphabet ..).mp ((si x).mp ((c x).mp hx)) with e | e | e | e | e
  · exact .inl e
  · exact .inr (.inl e)
  · exact .inr (.inr (.inl e))
  · exact .inr (.inl e)
  · exact .inr (.inr (.inr e))

theorem epsilonStar' : Usual (B.optimize (B.star (B.invert (single epsilon mark)))) ∧
    Marked (B.optimize (B.star (B.invert (single epsilon mark)))) ∧
    (∀ x, x ∈ (B.optimize (B.star (B.invert (single epsilon mark)))).alphabet → x = epsilon ∨ x = unknown ∨ x = identity ∨ x = mark) ∧
    ∀ l w, Means (B.optimize (B.star (B.invert (single epsilon mark)))) l w ↔ 0 ≤ w ∧ ∀ p ∈ l, p = (mark, epsilon) := by
  have us : Usual (single epsilon mark) := single_usual (by decide) mark_ne.2.2.2 (by decide)
  obtain ⟨ui, si, mi⟩ := C73_invert hB (single epsilon mark) us
  obtain ⟨a, b, c, d⟩ := starOf hB ui ((single_marked (.inl rfl)).congr si) (P := fun q => q = (mark, epsilon)) (fun l w => by
      rw [mi, single_means (by decide)]
      refine and_congr_right fun _ => ?_
      constructor
      · rintro ⟨q, h1, h2⟩
        refine ⟨q.swap, swap_one.mp h1, ?_⟩
        rw [epsilon_mark_st.mp h2]
        rfl
      · rintro ⟨q, rfl, h2⟩
        refine ⟨q.swap, rfl, epsilon_mark_st.mpr ?_⟩
        rw [h2]
        rfl)
  refine ⟨a, b, fun x hx => ?_, d⟩
  rcases (single_alphabet ..).mp ((si x).mp ((c x).mp hx)) with e | e | e | e | e
  · exact .inl e
  · exact .inr (.inl e)
  · exact .inr (.inr (.inl e))
  · exact .inl e
  · exact .inr (.inr (.inr e))

/-! ## The two halves -/

omit hB in
theorem ins_replicate (n : Nat) {p : Sym × Sym} (h : p.1 ≠ epsilon) : ins (List.replicate n p) = List.replicate n p.1 := by
  induction n with
  | zero => rfl
  | succ n ih => rw [List.replicate_succ, ins_cons, if_neg h, ih, List.replicate_succ]

omit hB in
theorem outs_replicate (n : Nat) {p : Sym × Sym} (h : p.2 ≠ epsilon) : outs (List.replicate n p) = List.replicate n p.2 := by
  induction n with
  | zero => rfl
  | succ n ih => rw [List.replicate_succ, outs_cons, if_neg h, ih, List.replicate_succ]

omit hB in
theorem ins_nothing {l : List (Sym × Sym)} (h : ∀ p ∈ l, p.1 = epsilon) : ins l = [] := by
  induction l with
  | nil => rfl
  | cons p l ih => rw [ins_cons, if_pos (h p (by simp)), ih fun q hq => h q (by simp [hq])]

omit hB in
theorem outs_nothing {l : List (Sym × Sym)} (h : ∀ p ∈ l, p.2 = epsilon) : outs l = [] := by
  induction l with
  | nil => rfl
  | cons p l ih => rw [outs_cons, if_pos (h p (by simp)), ih fun q hq => h q (by simp [hq])]

omit hB in
theorem mem_ins {l : List (Sym × Sym)} {x : Sym} : x ∈ ins l ↔ x ≠ epsilon ∧ ∃ p ∈ l, p.1 = x := by
  unfold ins
  rw [List.mem_filter, List.mem_map]
  simp [and_comm]

omit hB in
theorem mem_outs {l : List (Sym × Sym)} {x : Sym} : x ∈ outs l ↔ x ≠ epsilon ∧ ∃ p ∈ l, p.2 = x := by
  unfold outs
  rw [List.mem_filter, List.mem_map]
  simp [and_comm]

omit hB in
/-- The sequence of an automaton is its string, doubled. -/
theorem dup_ins {g : Graph} {l : List (Sym × Sym)} {w : Int} (hm : Means g l w) (h : ∀ p ∈ l, p.1 = p.2) :
    l = (ins l).map (fun x => (x, x)) ∧ outs l = ins l := by
  have hd := dup_of_pairs h
  have hne : epsilon ∉ l.map Prod.fst := by
    intro he
    obtain ⟨p, hp, e⟩ := List.mem_map.mp he
    have : p = (epsilon, epsilon) := Prod.ext e ((h p hp).symm.trans e)
    have hs := hm.stripped
    rw [← hs] at hp
    unfold strip at hp
    rw [List.mem_filter] at hp
    simp [this] at hp
  have hi : ins l = l.map Prod.fst := by
    conv_lhs => rw [hd]
    exact ins_dup _ hne
  refine ⟨by rw [hi]; exact hd, ?_⟩
  rw [hi]
  conv_lhs => rw [hd]
  exact outs_dup _ hne

omit hB in
theorem joined_left {a b j : List (Sym × Sym)} (hj : Joined a b j) (ha : ∀ p ∈ a, p.1 ≠ epsilon ∧ p.2 ≠ epsilon)
    (hb : ∀ p ∈ b, p.1 ≠ epsilon ∧ p.2 = mark) : ∀ p ∈ j, p.1 ≠ epsilon ∧ p.2 = mark := by
  induction hj with
  | nil => simp
  | @both x y z _ _ _ _ _ ih =>
    intro p hp
    rcases List.mem_cons.mp hp with rfl | hp
    · exact ⟨(ha (x, y) List.mem_cons_self).1, (hb (y, z) List.mem_cons_self).2⟩
    · exact ih (fun q hq => ha q (List.mem_cons_of_mem _ hq)) (fun q hq => hb q (List.mem_cons_of_mem _ hq)) p hp
  | left _ _ => exact absurd rfl (ha (_, epsilon) List.mem_cons_self).2
  | right _ _ => exact absurd rfl (hb (epsilon, _) List.mem_cons_self).1

omit hB in
theorem joined_right {a b j : List (Sym × Sym)} (hj : Joined a b j) (ha : ∀ p ∈ a, p.2 ≠ epsilon ∧ p.1 = mark)
    (hb : ∀ p ∈ b, p.1 ≠ epsilon ∧ p.2 ≠ epsilon) : ∀ p ∈ j, p.2 ≠ epsilon ∧ p.1 = mark := by
  induction hj with
  | nil => simp
  | @both x y z _ _ _ _ _ ih =>
    intro p hp
    rcases List.mem_cons.mp hp with rfl | hp
    · exact ⟨(hb (y, z) List.mem_cons_self).2, (ha (x, y) List.mem_cons_self).2⟩
    · exact ih (fun q hq => ha q (List.mem_cons_of_mem _ hq)) (fun q hq => hb q (List.mem_cons_of_mem _ hq)) p hp
  | left _ _ => exact absurd rfl (ha (_, epsilon) List.mem_cons_self).1
  | right _ _ => exact absurd rfl (hb (epsilon, _) List.mem_cons_self).1

omit hB in
/-- Two sequences over marks are joined place by place. -/
theorem joined_middle {a b j : List (Sym × Sym)} (hj : Joined a b j) (ha : ∀ p ∈ a, p.2 = mark) (hb : ∀ p ∈ b, p.1 = mark) :
    a.length = b.length ∧ j = (a.map Prod.fst).zip (b.map Prod.snd) := by
  induction hj with
  | nil => exact ⟨rfl, rfl⟩
  | both _ _ ih =>
    obtain ⟨h1, h2⟩ := ih (fun q hq => ha q (List.mem_cons_of_mem _ hq)) (fun q hq => hb q (List.mem_cons_of_mem _ hq))
    exact ⟨by simp [h1], by rw [h2]; rfl⟩
  | left _ _ => exact absurd (ha (_, epsilon) List.mem_cons_self).symm mark_ne.1
  | right _ _ => exact absurd (hb (epsilon, _) List.mem_cons_self).symm mark_ne.1

omit hB in
theorem zip_padded (s t : List Sym) (n m : Nat) (hs : epsilon ∉ s) (ht : epsilon ∉ t) (hl : s.length + n = t.length + m) :
    strip ((s ++ List.replicate n epsilon).zip (t ++ List.replicate m epsilon)) = padded s t := by
  induction s generalizing t n m with
  | nil =>
    induction t generalizing n m with
    | nil =>
      have : n = m := by simpa using hl
      subst this
      unfold padded
      rw [List.nil_append]
      clear hl hs ht
      induction n with
      | zero => rfl
      | succ n ih => rw [List.replicate_succ, List.zip_cons_cons, strip_cons_eps, ih]
    | cons y t ih =>
      simp only [List.length_nil, List.length_cons, Nat.zero_add] at hl
      obtain ⟨n', rfl⟩ : ∃ n', n = n' + 1 := ⟨n - 1, by omega⟩
      have hy : y ≠ epsilon := fun e => ht (by simp [e])
      have := ih n' m (fun h => ht (by simp [h])) (by simp only [List.length_nil]; omega)
      rw [List.nil_append, List.replicate_succ, List.cons_append, List.zip_cons_cons, strip_cons (fun e => hy (congrArg Prod.snd e))]
      unfold padded
      rw [← this]
      rfl
  | cons x s ih =>
    have hx : x ≠ epsilon := fun e => hs (by simp [e])
    match t with
    | [] =>
      simp only [List.length_nil, List.length_cons, Nat.zero_add] at hl
      obtain ⟨m', rfl⟩ : ∃ m', m = m' + 1 := ⟨m - 1, by omega⟩
      have := ih [] n m' (fun h => hs (by simp [h])) (by simp) (by simp only [List.length_nil]; omega)
      rw [List.nil_append, List.replicate_succ, List.cons_append, List.zip_cons_cons, strip_cons (fun e => hx (congrArg Prod.fst e))]
      unfold padded
      rw [← this]
      rfl
    | y :: t =>
      have := ih t n m (fun h => hs (by simp [h])) (fun h => ht (by simp [h])) (by simp only [List.length_cons] at hl; omega)
      rw [List.cons_append, List.cons_append, List.zip_cons_cons, strip_cons (fun e => hx (congrArg Prod.fst e))]
      unfold padded
      rw [this]

omit hB in
theorem ins_full {l : List (Sym × Sym)} (h : ∀ p ∈ l, p.1 ≠ epsilon) : ins l = l.map Prod.fst := by
  induction l with
  | nil => rfl
  | cons p l ih => rw [ins_cons, if_neg (h p (by simp)), ih fun q hq => h q (by simp [hq])]; rfl

omit hB in
theorem outs_full {l : List (Sym × Sym)} (h : ∀ p ∈ l, p.2 ≠ epsilon) : outs l = l.map Prod.snd := by
  induction l with
  | nil => rfl
  | cons p l ih => rw [outs_cons, if_neg (h p (by simp)), ih fun q hq => h q (by simp [hq])]; rfl

omit hB in
theorem map_const {l : List (Sym × Sym)} {f : Sym × Sym → Sym} {x : Sym} (h : ∀ p ∈ l, f p = x) :
    l.map f = List.replicate l.length x := by
  induction l with
  | nil => rfl
  | cons p l ih => rw [List.map_cons, h p (by simp), ih fun q hq => h q (by simp [hq])]; rfl

omit hB in
theorem strip_sub {l : List (Sym × Sym)} {p : Sym × Sym} (h : p ∈ strip l) : p ∈ l := (List.mem_filter.mp h).1

omit hB in
theorem plain_no_mark {g : Graph} (hp : Plain g) : mark ∉ g.alphabet := by
  intro h
  have := mark_ne
  rcases hp mark (by decide) h with e | e | e
  · exact this.1 e
  · exact this.2.1 e
  · exact this.2.2.1 e

omit hB in
theorem plain_marked {g : Graph} (hp : Plain g) (hal : ∀ x, x ∈ (g.addSymbol mark).alphabet ↔ x ∈ g.alphabet ∨ x = mark) :
    Marked (g.addSymbol mark) := by
  refine ⟨(hal _).mpr (.inr rfl), fun x hx hm => ?_⟩
  rcases (hal x).mp hm with h | h
  · rcases hp x hx h with e | e | e
    · exact .inl e
    · exact .inr (.inl e)
    · exact .inr (.inr (.inl e))
  · exact .inr (.inr (.inr h))

/-- The first half: strings of the first automaton over at least as many marks. -/
theorem left_half {g : Graph} (hg : Usual g) (hp : Plain g) (ha : Automaton g) :
    ∃ a₀ a, compose B (g.addSymbol mark) (markStar B unknown mark) = .ok a₀ ∧
      concatenate B (B.optimize a₀) (markStar B epsilon mark) = .ok a ∧ Usual a ∧ Marked a ∧
      (∀ x, x ∈ a.alphabet ↔ x ∈ g.alphabet ∨ x = mark) ∧
      (∀ l w, Means a l w → Means g ((ins l).map fun x => (x, x)) w ∧ (∀ x ∈ ins l, U x) ∧ (∀ p ∈ l, p.2 = mark) ∧
        ∃ n, l.map Prod.fst = ins l ++ List.replicate n epsilon) ∧
      ∀ s w n, Means g (s.map fun x => (x, x)) w → (∀ x ∈ s, U x) →
        ∃ l, Means a l w ∧ ins l = s ∧ outs l = List.replicate (s.length + n) mark := by
  obtain ⟨u1, al1, m1⟩ := addSymbol_means hg (plain_no_mark hp) mark_ne.2.2.2
  have k1 := plain_marked hp al1
  obtain ⟨u2, k2, al2, m2⟩ := unknownStar hB
  obtain ⟨u3, k3, al3, m3⟩ := epsilonStar hB
  obtain ⟨a₀, e0, u4, al4, sound, complete⟩ := compose_means hB u1 u2 (k1.same k2 u1 u2)
  have k4 := k1.union k2 al4
  obtain ⟨u5, s5, m5⟩ := optimize_means hB u4
  obtain ⟨a, e1, u6, al6, m6⟩ := C73_concatenate hB _ _ u5 u3 ((k4.congr s5).same k3 u5 u3)
  have k6 := (k4.congr s5).union k3 al6
  have hthree : ∀ x, x = epsilon ∨ x = unknown ∨ x = identity ∨ x = mark → x ∈ g.alphabet ∨ x = mark := by
    rintro x (rfl | rfl | rfl | rfl)
    · exact .inl hg.good.alpha.eps
    · exact .inl hg.good.alpha.unk
    · exact .inl hg.good.alpha.idn
    · exact .inr rfl
  refine ⟨a₀, a, e0, e1, u6, k6, fun x => ?_, ?_, ?_⟩
  · rw [al6, s5, al4, al1]
    constructor
    · rintro ((h | h) | h)
      · exact h
      · exact hthree x (al2 x h)
      · exact hthree x (al3 x h)
    · exact fun h => .inl (.inl h)
  · intro l w hm
    obtain ⟨l₁, l₂, w₁, w₂, h1, h2, rfl, hw⟩ := (m6 l w).mp hm
    obtain ⟨h0, h2⟩ := (m3 _ _).mp h2
    obtain ⟨c, b, j, v₁, v₂, h3, h4, hj, rfl, hv⟩ := sound _ _ ((m5 _ _).mp h1)
    obtain ⟨h3, hfree⟩ := (m1 _ _).mp h3
    obtain ⟨h00, h4⟩ := (m2 _ _).mp h4
    obtain ⟨s1, s2, s3⟩ := hj.sides
    obtain ⟨hd, ho⟩ := dup_ins h3 (ha c v₁ h3)
    have hins : ins (strip j ++ l₂) = ins c := by
      rw [ins_append, ins_strip, s1, ins_nothing (l := l₂) (fun p hp => by rw [h2 p hp]), List.append_nil]
    have hmid : ∀ p ∈ j, p.1 ≠ epsilon ∧ p.2 = mark := by
      refine joined_left hj ?_ fun q hq => ⟨(h4 q hq).1.1.1, (h4 q hq).2⟩
      intro q hq
      rw [hd] at hq
      obtain ⟨x, hx, rfl⟩ := List.mem_map.mp hq
      exact ⟨(mem_ins.mp hx).1, (mem_ins.mp hx).1⟩
    refine ⟨?_, ?_, ?_, l₂.length, ?_⟩
    · rw [hins, ← hd]
      exact h3.mono (by omega)
    · intro x hx
      rw [hins, ← ho, s3] at hx
      obtain ⟨_, p, hp, rfl⟩ := mem_ins.mp hx
      exact (h4 p hp).1
    · intro p hp
      rcases List.mem_append.mp hp with hp | hp
      · exact (hmid p (strip_sub hp)).2
      · rw [h2 p hp]
    · rw [ins_append, ins_full (fun p hp => (hmid p (strip_sub hp)).1), ins_nothing (l := l₂) (fun p hp => by rw [h2 p hp]),
        List.append_nil, List.map_append, map_const (l := l₂) (fun p hp => by rw [h2 p hp])]
  · intro s w n hm hu
    have hne : epsilon ∉ s := fun h => (hu _ h).1.1 rfl
    have hc : Means (g.addSymbol mark) (s.map fun x => (x, x)) w := by
      refine (m1 _ _).mpr ⟨hm, fun p hp => ?_⟩
      obtain ⟨x, hx, rfl⟩ := List.mem_map.mp hp
      exact ⟨(hu x hx).2, (hu x hx).2⟩
    have hb : Means (markStar B unknown mark) (s.map fun x => (x, mark)) 0 := by
      refine (m2 _ _).mpr ⟨Int.le_refl _, fun p hp => ?_⟩
      obtain ⟨x, hx, rfl⟩ := List.mem_map.mp hp
      exact ⟨hu x hx, rfl⟩
    have hib : ins (s.map fun x => (x, mark)) = s ∧ outs (s.map fun x => (x, mark)) = List.replicate s.length mark := by
      clear hm hc hb hu
      induction s with
      | nil => exact ⟨rfl, rfl⟩
      | cons x s ih =>
        have hx : x ≠ epsilon := fun e => hne (by simp [e])
        obtain ⟨i1, i2⟩ := ih (fun h => hne (by simp [h]))
        rw [List.map_cons, ins_cons, outs_cons, if_neg hx, if_neg mark_ne.1, i1, i2]
        exact ⟨rfl, rfl⟩
    have hkeep : KeepsOutput (markStar B unknown mark) := by
      intro l v hl x y hxy ho
      have e := (((m2 _ _).mp hl).2 _ hxy).2
      dsimp only at e
      rw [e] at ho
      exact absurd k2.1 ho.2
    obtain ⟨j, hj, hmj⟩ := complete (.inr hkeep) _ _ _ _ hc hb (by rw [outs_dup _ hne, hib.1])
    obtain ⟨s1, s2, s3⟩ := hj.sides
    refine ⟨strip j ++ List.replicate n (epsilon, mark), (m6 _ _).mpr ⟨_, _, w + 0, 0, (m5 _ _).mpr hmj,
      (m3 _ _).mpr ⟨Int.le_refl _, fun p hp => (List.mem_replicate.mp hp).2⟩, rfl, by omega⟩, ?_, ?_⟩
    · rw [ins_append, ins_strip, s1, ins_dup _ hne, ins_nothing (fun p hp => by rw [(List.mem_replicate.mp hp).2]), List.append_nil]
    · rw [outs_append, outs_strip, s2, hib.2, outs_replicate n mark_ne.1, ← List.replicate_add]

/-- The second half: at least as many marks over the strings of the second automaton. -/
theorem right_half {g : Graph} (hg : Usual g) (hp : Plain g) (ha : Automaton g) :
    ∃ a₀ a, compose B (B.optimize (B.star (B.invert (single unknown mark)))) (g.addSymbol mark) = .ok a₀ ∧
      concatenate B (B.optimize a₀) (B.optimize (B.star (B.invert (single epsilon mark)))) = .ok a ∧ Usual a ∧ Marked a ∧
      (∀ x, x ∈ a.alphabet ↔ x ∈ g.alphabet ∨ x = mark) ∧
      (∀ l w, Means a l w → Means g ((outs l).map fun x => (x, x)) w ∧ (∀ x ∈ outs l, U x) ∧ (∀ p ∈ l, p.1 = mark) ∧
        ∃ n, l.map Prod.snd = outs l ++ List.replicate n epsilon) ∧
      ∀ s w n, Means g (s.map fun x => (x, x)) w → (∀ x ∈ s, U x) →
        ∃ l, Means a l w ∧ outs l = s ∧ ins l = List.replicate (s.length + n) mark := by
  obtain ⟨u1, al1, m1⟩ := addSymbol_means hg (plain_no_mark hp) mark_ne.2.2.2
  have k1 := plain_marked hp al1
  obtain ⟨u2, k2, al2, m2⟩ := unknownStar' hB
  obtain ⟨u3, k3, al3, m3⟩ := epsilonStar' hB
  obtain ⟨a₀, e0, u4, al4, sound, complete⟩ := compose_means hB u2 u1 (k2.same k1 u2 u1)
  have k4 := k2.union k1 al4
  obtain ⟨u5, s5, m5⟩ := optimize_means hB u4
  obtain ⟨a, e1, u6, al6, m6⟩ := C73_concatenate hB _ _ u5 u3 ((k4.congr s5).same k3 u5 u3)
  have k6 := (k4.congr s5).union k3 al6
  have hthree : ∀ x, x = epsilon ∨ x = unknown ∨ x = identity ∨ x = mark → x ∈ g.alphabet ∨ x = mark := by
    rintro x (rfl | rfl | rfl | rfl)
    · exact .inl hg.good.alpha.eps
    · exact .inl hg.good.alpha.unk
    · exact .inl hg.good.alpha.idn
    · exact .inr rfl
  refine ⟨a₀, a, e0, e1, u6, k6, fun x => ?_, ?_, ?_⟩
  · rw [al6, s5, al4, al1]
    constructor
    · rintro ((h | h) | h)
      · exact hthree x (al2 x h)
      · exact h
      · exact hthree x (al3 x h)
    · exact fun h => .inl (.inr h)
  · intro l w hm
    obtain ⟨l₁, l₂, w₁, w₂, h1, h2, rfl, hw⟩ := (m6 l w).mp hm
    obtain ⟨h0, h2⟩ := (m3 _ _).mp h2
    obtain ⟨b, c, j, v₁, v₂, h4, h3, hj, rfl, hv⟩ := sound _ _ ((m5 _ _).mp h1)
    obtain ⟨h3, hfree⟩ := (m1 _ _).mp h3
    obtain ⟨h00, h4⟩ := (m2 _ _).mp h4
    obtain ⟨s1, s2, s3⟩ := hj.sides
    obtain ⟨hd, ho⟩ := dup_ins h3 (ha c v₂ h3)
    have houts : outs (strip j ++ l₂) = ins c := by
      rw [outs_append, outs_strip, s2, outs_nothing (l := l₂) (fun p hp => by rw [h2 p hp]), List.append_nil, ho]
    have hmid : ∀ p ∈ j, p.2 ≠ epsilon ∧ p.1 = mark := by
      refine joined_right hj (fun q hq => ⟨(h4 q hq).1.1.1, (h4 q hq).2⟩) ?_
      intro q hq
      rw [hd] at hq
      obtain ⟨x, hx, rfl⟩ := List.mem_map.mp hq
      exact ⟨(mem_ins.mp hx).1, (mem_ins.mp hx).1⟩
    refine ⟨?_, ?_, ?_, l₂.length, ?_⟩
    · rw [houts, ← hd]
      exact h3.mono (by omega)
    · intro x hx
      rw [houts, ← s3] at hx
      obtain ⟨_, p, hp, rfl⟩ := mem_outs.mp hx
      exact (h4 p hp).1
    · intro p hp
      rcases List.mem_append.mp hp with hp | hp
      · exact (hmid p (strip_sub hp)).2
      · rw [h2 p hp]
    · rw [outs_append, outs_full (fun p hp => (hmid p (strip_sub hp)).1), outs_nothing (l := l₂) (fun p hp => by rw [h2 p hp]),
        List.append_nil, List.map_append, map_const (l := l₂) (fun p hp => by rw [h2 p hp])]
  · intro s w n hm hu
    have hne : epsilon ∉ s := fun h => (hu _ h).1.1 rfl
    have hc : Means (g.addSymbol mark) (s.map fun x => (x, x)) w := by
      refine (m1 _ _).mpr ⟨hm, fun p hp => ?_⟩
      obtain ⟨x, hx, rfl⟩ := List.mem_map.mp hp
      exact ⟨(hu x hx).2, (hu x hx).2⟩
    have hb : Means (B.optimize (B.star (B.invert (single unknown mark)))) (s.map fun x => (mark, x)) 0 := by
      refine (m2 _ _).mpr ⟨Int.le_refl _, fun p hp => ?_⟩
      obtain ⟨x, hx, rfl⟩ := List.mem_map.mp hp
      exact ⟨hu x hx, rfl⟩
    have hib : outs (s.map fun x => (mark, x)) = s ∧ ins (s.map fun x => (mark, x)) = List.replicate s.length mark := by
      clear hm hc hb hu
      induction s with
      | nil => exact ⟨rfl, rfl⟩
      | cons x s ih =>
        have hx : x ≠ epsilon := fun e => hne (by simp [e])
        obtain ⟨i1, i2⟩ := ih (fun h => hne (by simp [h]))
        rw [List.map_cons, ins_cons, outs_cons, if_neg hx, if_neg mark_ne.1, i1, i2]
        exact ⟨rfl, rfl⟩
    have hkeep : KeepsInput (B.optimize (B.star (B.invert (single unknown mark)))) := by
      intro l v hl x y hxy ho
      have e := (((m2 _ _).mp hl).2 _ hxy).2
      dsimp only at e
      rw [e] at ho
      exact absurd k2.1 ho.2
    obtain ⟨j, hj, hmj⟩ := complete (.inl hkeep) _ _ _ _ hb hc (by rw [ins_dup _ hne, hib.1])
    obtain ⟨s1, s2, s3⟩ := hj.sides
    refine ⟨strip j ++ List.replicate n (mark, epsilon), (m6 _ _).mpr ⟨_, _, 0 + w, 0, (m5 _ _).mpr hmj,
      (m3 _ _).mpr ⟨Int.le_refl _, fun p hp => (List.mem_replicate.mp hp).2⟩, rfl, by omega⟩, ?_, ?_⟩
    · rw [outs_append, outs_strip, s2, outs_dup _ hne, outs_nothing (fun p hp => by rw [(List.mem_replicate.mp hp).2]), List.append_nil]
    · rw [ins_append, ins_strip, s1, hib.2, ins_replicate n mark_ne.1, ← List.replicate_add]

/-! ## The whole -/

omit hB in
/-- Unknown pairs become unknown or identity pairs. -/
theorem loosened {g : Graph} (hg : Usual g) : ∃ r, g.substitutePairSet (unknown, unknown) [(identity, identity), (unknown, unknown)] = .ok r ∧
    (∀ x, x ∈ (convert r).alphabet ↔ x ∈ g.alphabet) ∧
    ∀ c w, (∃ k, Cost r k w ∧ List.Forall₂ (St g.alphabet) k c) ↔ ∃ k, Cost g k w ∧ List.Forall₂ (Loose True g.alphabet) k c := by
  obtain ⟨r, hr⟩ : ∃ r, g.substitutePairSet (unknown, unknown) [(identity, identity), (unknown, unknown)] = .ok r := by
    unfold Graph.substitutePairSet
    rw [if_neg (by decide), if_neg (by decide)]
    exact ⟨_, rfl⟩
  refine ⟨r, hr, ?_, ?_⟩
  · intro x
    have hconv : x ∈ (convert r).alphabet ↔ x ∈ r.alphabet ∨ x ∈ [epsilon, unknown, identity] := mem_alphabet_addSymbols
    rw [hconv]
    have hthree : x ∈ [epsilon, unknown, identity] → x ∈ g.alphabet := by
      simp only [List.mem_cons, List.not_mem_nil, or_false]
      rintro (rfl | rfl | rfl)
      · exact hg.good.alpha.eps
      · exact hg.good.alpha.unk
      · exact hg.good.alpha.idn
    have hprune : ∀ k : Graph, x ∈ (k.pruneAfterSubstitution (setInsert [unknown] unknown)).alphabet ∨ x ∈ [epsilon, unknown, identity] ↔
        x ∈ k.alphabet ∨ x ∈ [epsilon, unknown, identity] := by
      intro k
      have : setInsert [unknown] unknown = [unknown] := by decide
      rw [this]
      unfold Graph.pruneAfterSubstitution
      simp only [List.length_cons, List.length_nil, Nat.zero_add, Nat.one_ne_zero, if_false, List.foldl_cons, List.foldl_nil]
      split
      · exact Iff.rfl
      · rw [mem_setErase]
        by_cases hx : x = unknown
        · simp [hx]
        · simp [hx]
    unfold Graph.substitutePairSet at hr
    rw [if_neg (by decide), if_neg (by decide)] at hr
    cases hr
    rw [hprune]
    constructor
    · rintro (h | h)
      · split at h
        · simp only [Graph.addSymbolPairs, List.foldl_cons, List.foldl_nil, mem_setInsert] at h
          rcases h with rfl | rfl | rfl | rfl | h
          · exact hg.good.alpha.unk
          · exact hg.good.alpha.unk
          · exact hg.good.alpha.idn
          · exact hg.good.alpha.idn
          · exact h
        · exact h
      · exact hthree h
    · intro h
      left
      split
      · simp only [Graph.addSymbolPairs, List.foldl_cons, List.foldl_nil, mem_setInsert]
        simp [h]
      · exact h
  · intro c w
    have key := C19_substitutePairSet g r _ _ (by simp) hr
    constructor
    · rintro ⟨_, ⟨k', w', h1, rfl, hw⟩, h2⟩
      obtain ⟨l, h3, h4⟩ := (key _ _).mp h1
      obtain ⟨c', h5, rfl⟩ := forall₂_unstrip h2
      refine ⟨strip l, ⟨l, w', h3, rfl, hw⟩, forall₂_strip' (fun _ => loose_from_eps.mp) (fun _ => loose_eps.mp) ?_⟩
      clear h1 h2 h3 key hw
      induction h4 generalizing c' with
      | nil => cases h5; exact .nil
      | @cons p p' k k' hp _ ih =>
        cases h5 with
        | @cons _ q _ c' hq hrest =>
          refine .cons ?_ (ih c' hrest)
          split at hp
          · rename_i he
            simp only [List.mem_cons, List.not_mem_nil, or_false] at hp
            rcases hp with rfl | rfl
            · right
              obtain ⟨x, y⟩ := q
              rcases st_iff.mp hq with ⟨_, _, h3, h4⟩ | ⟨h, _⟩
              · exact ⟨trivial, he, h3, h4⟩
              · exact absurd rfl h
            · left
              rw [he]
              exact hq
          · left
            rw [← hp]
            exact hq
    · rintro ⟨_, ⟨k, w', h1, rfl, hw⟩, h2⟩
      obtain ⟨c', h3, rfl⟩ := forall₂_unstrip' (loose_eps.mpr rfl) (fun _ => loose_eps.mp) h2
      have : ∃ k', List.Forall₂ (fun p p' => if p = (unknown, unknown) then p' ∈ [(identity, identity), (unknown, unknown)] else p' = p) k k' ∧
          List.Forall₂ (St g.alphabet) k' c' := by
        clear h1 h2 key hw
        induction h3 with
        | nil => exact ⟨[], .nil, .nil⟩
        | @cons p q k c' hpq _ ih =>
          obtain ⟨k', i1, i2⟩ := ih
          rcases hpq with hpq | ⟨_, he, h3, h4⟩
          · refine ⟨p :: k', .cons ?_ i1, .cons hpq i2⟩
            split
            · rename_i he
              rw [he]; simp
            · rfl
          · refine ⟨(identity, identity) :: k', .cons ?_ i1, .cons ?_ i2⟩
            · rw [if_pos he]; simp
            · obtain ⟨x, y⟩ := q
              exact st_iff.mpr (.inl ⟨rfl, rfl, h3, h4⟩)
      obtain ⟨k', i1, i2⟩ := this
      exact ⟨strip k', ⟨k', w', (key _ _).mpr ⟨k, h1, i1⟩, rfl, hw⟩, forall₂_strip i2⟩

/-- What the tests let through: exactly the automata. -/
theorem projectsToItself_spec {g : Graph} (hg : Usual g) :
    ∃ b, projectsToItself B g = .ok b ∧ (b = true ↔ Automaton g) := by
  obtain ⟨u, s, _, m⟩ := C73_inputProject hB g hg
  obtain ⟨b, e, hb⟩ := C73_compare hB _ _ u hg (fun x _ => s x)
  refine ⟨b, e, hb.trans ⟨?_, ?_⟩⟩
  · intro h l w hl p hp
    obtain ⟨l', _, rfl⟩ := (m l w).mp ((h l w).mpr hl)
    obtain ⟨x, _, rfl⟩ := List.mem_map.mp hp
    rfl
  · intro ha l w
    rw [m]
    constructor
    · rintro ⟨l', h1, rfl⟩
      rw [← (dup_ins h1 (ha l' w h1)).1]
      exact h1
    · intro h
      exact ⟨l, h, (dup_ins h (ha l w h)).1⟩

/-- The cross product of two automata, exactly. -/
theorem crossBody_spec {g h : Graph} (hg : Usual g) (hh : Usual h) (pg : Plain g) (ph : Plain h) (ag : Automaton g) (ah : Automaton h) :
    ∃ r, crossBody B g h = .ok r ∧ (∀ x, x ∈ r.alphabet ↔ x ∈ g.alphabet ∨ x ∈ h.alphabet) ∧
      (∀ l w, Means r l w → mark ∉ ins l → mark ∉ outs l → l = padded (ins l) (outs l)) ∧
      ∀ s t w, mark ∉ s → mark ∉ t → (Relates r s t w ↔ (∀ x ∈ s, U x) ∧ (∀ x ∈ t, U x) ∧
        ∃ w₁ w₂, Means g (s.map fun x => (x, x)) w₁ ∧ Means h (t.map fun x => (x, x)) w₂ ∧ w₁ + w₂ ≤ w) := by
  obtain ⟨a₀, a, e1, e2, ua, ka, ala, sa, ca⟩ := left_half hB hg pg ag
  obtain ⟨b₀, b, e3, e4, ub, kb, alb, sb, cb⟩ := right_half hB hh ph ah
  obtain ⟨ua', sma, ma⟩ := optimize_means hB ua
  obtain ⟨ub', smb, mb⟩ := optimize_means hB ub
  obtain ⟨q, e5, uq, alq, sound, complete⟩ := compose_core hB ua' ub' ((ka.congr sma).same (kb.congr smb) ua' ub')
  have rq := hB.optimize q uq.good
  obtain ⟨uq', smq, _⟩ := optimize_means hB uq
  obtain ⟨r, e6, alr, hr⟩ := loosened uq'
  have halq : ∀ x, x ∈ (B.optimize q).alphabet ↔ (x ∈ g.alphabet ∨ x ∈ h.alphabet) ∨ x = mark := by
    intro x
    rw [smq, alq, sma, smb, ala, alb]
    constructor
    · rintro ((h | h) | (h | h))
      · exact .inl (.inl h)
      · exact .inr h
      · exact .inl (.inr h)
      · exact .inr h
    · rintro ((h | h) | h)
      · exact .inl (.inl h)
      · exact .inr (.inl h)
      · exact .inl (.inr h)
  have hal : ∀ x, x ∈ ((convert r).removeSymbol mark).alphabet ↔ x ∈ g.alphabet ∨ x ∈ h.alphabet := by
    intro x
    show x ∈ setErase (convert r).alphabet mark ↔ _
    rw [mem_setErase, alr, halq]
    constructor
    · rintro ⟨h | h, hne⟩
      · exact h
      · exact absurd h hne
    · intro hx
      refine ⟨.inl hx, fun e => ?_⟩
      rw [e] at hx
      exact hx.elim (plain_no_mark pg) (plain_no_mark ph)
  have hcost : ∀ k w, Cost ((convert r).removeSymbol mark) k w ↔ Cost r k w := by
    intro k w
    have l1 : Larger r (convert r) := larger_addSymbols r _
    have l2 : Larger ((convert r).removeSymbol mark) (convert r) := ⟨rfl, rfl, fun x hx => (mem_setErase.mp hx).1⟩
    unfold Cost
    simp only [← l2.accepts, l1.accepts]
  -- what unknown and identity stand for does not change for sequences without the mark
  have hout : ∀ x, x ≠ mark → (Outside ((convert r).removeSymbol mark).alphabet x ↔ Outside (B.optimize q).alphabet x) := by
    intro x hx
    unfold Outside
    rw [hal, halq]
    simp [hx]
  have hmeans : ∀ c w, (∀ p ∈ c, p.1 ≠ mark ∧ p.2 ≠ mark) → (Means ((convert r).removeSymbol mark) c w ↔
      ∃ k, Cost q k w ∧ List.Forall₂ (Loose True q.alphabet) k c) := by
    intro c w hc
    have h1 : Means ((convert r).removeSymbol mark) c w ↔ ∃ k, Cost r k w ∧ List.Forall₂ (St (B.optimize q).alphabet) k c := by
      rw [means_iff]
      refine exists_congr fun k => ?_
      rw [hcost]
      refine and_congr_right fun _ => ⟨fun hf => ?_, fun hf => ?_⟩
      · refine forall₂_imp_mem hf fun p q' hq hs => st_of_outside (fun x hx ho => ?_) hs
        refine (hout x ?_).mp ho
        rcases hx with rfl | rfl
        · exact (hc q' hq).1
        · exact (hc q' hq).2
      · refine forall₂_imp_mem hf fun p q' hq hs => st_of_outside (fun x hx ho => ?_) hs
        refine (hout x ?_).mpr ho
        rcases hx with rfl | rfl
        · exact (hc q' hq).1
        · exact (hc q' hq).2
    rw [h1, hr]
    have hl : ∀ {p q'}, Loose True (B.optimize q).alphabet p q' ↔ Loose True q.alphabet p q' := by
      intro p q'
      unfold Loose
      have ho : Outside (B.optimize q).alphabet q'.1 ↔ Outside q.alphabet q'.1 := by
        unfold Outside
        rw [smq]
      rw [ho]
      exact or_congr ⟨St.congr smq, St.congr fun x => (smq x).symm⟩ Iff.rfl
    refine exists_congr fun k => and_congr (rq.cost k w) ⟨fun hf => hf.imp fun _ _ => hl.mp, fun hf => hf.imp fun _ _ => hl.mpr⟩
  have hknown : KnownOutput (B.optimize a) := by
    intro l v hl x y hxy ho
    have e := (sa l v ((ma _ _).mp hl)).2.2.1 _ hxy
    dsimp only at e
    rw [e] at ho
    exact ho.2 ((sma _).mpr ka.1)
  refine ⟨(convert r).removeSymbol mark, ?_, hal, ?_, ?_⟩
  · unfold crossBody
    dsimp only
    rw [e1]
    simp only [Outcome.bind]
    rw [e2]
    simp only []
    rw [e3]
    simp only []
    rw [e4]
    simp only []
    rw [e5]
    simp only []
    rw [e6]
  · intro c w hc hms hmt
    have hfree : ∀ p ∈ c, p.1 ≠ mark ∧ p.2 ≠ mark := fun p hp =>
      ⟨fun e => hms (mem_ins.mpr ⟨mark_ne.1, p, hp, e⟩), fun e => hmt (mem_outs.mpr ⟨mark_ne.1, p, hp, e⟩)⟩
    obtain ⟨k, hk, hf⟩ := (hmeans c w hfree).mp hc
    obtain ⟨l₁, l₂, j, w₁, w₂, h1, h2, hj, rfl, hw⟩ := sound True (fun _ => hknown) k w c hk hf
    obtain ⟨s1, s2, _⟩ := hj.sides
    obtain ⟨_, _, i3, n, i4⟩ := sa _ _ ((ma _ _).mp h1)
    obtain ⟨_, _, i5, m, i6⟩ := sb _ _ ((mb _ _).mp h2)
    obtain ⟨i7, i8⟩ := joined_middle hj i3 i5
    rw [ins_strip, outs_strip, s1, s2]
    conv_lhs => rw [i8, i4, i6]
    refine zip_padded _ _ n m (ins_no_eps _) (outs_no_eps _) ?_
    have q1 := congrArg List.length i4
    have q2 := congrArg List.length i6
    simp only [List.length_map, List.length_append, List.length_replicate] at q1 q2
    omega
  intro s t w hms hmt
  constructor
  · rintro ⟨c, hc, rfl, rfl⟩
    have hfree : ∀ p ∈ c, p.1 ≠ mark ∧ p.2 ≠ mark := fun p hp =>
      ⟨fun e => hms (mem_ins.mpr ⟨mark_ne.1, p, hp, e⟩), fun e => hmt (mem_outs.mpr ⟨mark_ne.1, p, hp, e⟩)⟩
    obtain ⟨k, hk, hf⟩ := (hmeans c w hfree).mp hc
    obtain ⟨l₁, l₂, j, w₁, w₂, h1, h2, hj, rfl, hw⟩ := sound True (fun _ => hknown) k w c hk hf
    obtain ⟨s1, s2, _⟩ := hj.sides
    obtain ⟨i1, i2, _⟩ := sa _ _ ((ma _ _).mp h1)
    obtain ⟨i3, i4, _⟩ := sb _ _ ((mb _ _).mp h2)
    rw [ins_strip, outs_strip, s1, s2]
    exact ⟨i2, i4, w₁, w₂, i1, i3, hw⟩
  · rintro ⟨hs, ht, w₁, w₂, h1, h2, hw⟩
    obtain ⟨l₁, i1, i2, i3⟩ := ca s w₁ (t.length) h1 hs
    obtain ⟨l₂, i4, i5, i6⟩ := cb t w₂ (s.length) h2 ht
    obtain ⟨k, j, hk, hj, hf⟩ := complete (Loose True q.alphabet) (fun _ _ => .inl) (fun _ => loose_from_eps.mp)
      (fun _ => loose_eps.mp) l₁ l₂ w₁ w₂ ((ma _ _).mpr i1) ((mb _ _).mpr i4) (by rw [i3, i6, Nat.add_comm])
      (fun c m _ _ ho _ => .inr ⟨trivial, rfl, rfl, ho⟩)
    obtain ⟨s1, s2, _⟩ := hj.sides
    have hin : ins (strip j) = s := by rw [ins_strip, s1, i2]
    have hou : outs (strip j) = t := by rw [outs_strip, s2, i5]
    refine ⟨strip j, (hmeans _ _ ?_).mpr ⟨k, hk.mono hw, hf⟩, hin, hou⟩
    intro p hp
    exact ⟨fun e => hms (hin ▸ mem_ins.mpr ⟨mark_ne.1, p, hp, e⟩), fun e => hmt (hou ▸ mem_outs.mpr ⟨mark_ne.1, p, hp, e⟩)⟩

/-- C75: the cross product of two automata maps every string of the first to every string of the second, with added weights,
and nothing else, with epsilons at the end of the
shorter string; also when the automata accept symbols that they do not know.  Missing: strings with flag diacritics and other
symbols that are not ordinary, see `C75_violated`, and with the internal symbol `@_MARK_@`. -/
theorem C75_partial (g h : Graph) (hg : Usual g) (hh : Usual h) (pg : Plain g) (ph : Plain h) (ag : Automaton g) (ah : Automaton h) :
    ∃ r, crossProduct B g h = .ok r ∧ (∀ x, x ∈ r.alphabet ↔ x ∈ g.alphabet ∨ x ∈ h.alphabet) ∧
      (∀ l w, Means r l w → (∀ x ∈ ins l ++ outs l, x ≠ "@_MARK_@".toList) → l = padded (ins l) (outs l)) ∧
      ∀ s t w, (∀ x ∈ s ++ t, Ordinary x ∧ x ≠ "@_MARK_@".toList) →
        (Relates r s t w ↔ ∃ w₁ w₂, Relates g s s w₁ ∧ Relates h t t w₂ ∧ w₁ + w₂ ≤ w) := by
  obtain ⟨b₁, e1, h1⟩ := projectsToItself_spec hB hg
  obtain ⟨b₂, e2, h2⟩ := projectsToItself_spec hB hh
  obtain ⟨r, e3, hal, hpad, hr⟩ := crossBody_spec hB hg hh pg ph ag ah
  refine ⟨r, ?_, hal, fun l w hl hm => hpad l w hl (fun e => hm _ (List.mem_append_left _ e) rfl)
    (fun e => hm _ (List.mem_append_right _ e) rfl), fun s t w hs => ?_⟩
  · unfold crossProduct
    rw [e1, e2]
    simp only [Outcome.bind]
    rw [h1.mpr ag, h2.mpr ah]
    exact e3
  have hself : ∀ {k : Graph} (_ : Automaton k) {u : List Sym} {v : Int}, (∀ x ∈ u, Ordinary x) →
      (Relates k u u v ↔ Means k (u.map fun x => (x, x)) v) := by
    intro k ak u v hu
    constructor
    · rintro ⟨l, hl, rfl, _⟩
      rw [← (dup_ins hl (ak l v hl)).1]
      exact hl
    · intro hm
      have hne : epsilon ∉ u := fun e => (hu _ e).1 rfl
      exact ⟨_, hm, ins_dup _ hne, outs_dup _ hne⟩
  rw [hr s t w (fun e => (hs _ (List.mem_append_left _ e)).2 rfl) (fun e => (hs _ (List.mem_append_right _ e)).2 rfl)]
  constructor
  · rintro ⟨_, _, w₁, w₂, i1, i2, hw⟩
    exact ⟨w₁, w₂, (hself ag fun x hx => (hs x (List.mem_append_left _ hx)).1).mpr i1,
      (hself ah fun x hx => (hs x (List.mem_append_right _ hx)).1).mpr i2, hw⟩
  · rintro ⟨w₁, w₂, i1, i2, hw⟩
    exact ⟨fun x hx => hs x (List.mem_append_left _ hx), fun x hx => hs x (List.mem_append_right _ hx), w₁, w₂,
      (hself ag fun x hx => (hs x (List.mem_append_left _ hx)).1).mp i1,
      (hself ah fun x hx => (hs x (List.mem_append_right _ hx)).1).mp i2, hw⟩

/-- C75, the error: the cross product is refused exactly when one of the operands accepts a pair of different symbols. -/
theorem C75_throws (g h : Graph) (hg : Usual g) (hh : Usual h) (pg : Plain g) (ph : Plain h) :
    crossProduct B g h = .throws ↔ ∃ l w, (Means g l w ∨ Means h l w) ∧ ∃ p ∈ l, p.1 ≠ p.2 := by
  obtain ⟨b₁, e1, h1⟩ := projectsToItself_spec hB hg
  obtain ⟨b₂, e2, h2⟩ := projectsToItself_spec hB hh
  constructor
  · intro ht
    by_contra hcon
    have ag : Automaton g := fun l w hl p hp => by
      by_contra hne
      exact hcon ⟨l, w, .inl hl, p, hp, hne⟩
    have ah : Automaton h := fun l w hl p hp => by
      by_contra hne
      exact hcon ⟨l, w, .inr hl, p, hp, hne⟩
    obtain ⟨r, e, _⟩ := C75_partial hB g h hg hh pg ph ag ah
    rw [e] at ht
    cases ht
  · rintro ⟨l, w, hl, p, hp, hne⟩
    unfold crossProduct
    rw [e1, e2]
    simp only [Outcome.bind]
    rw [if_pos]
    rcases hl with hl | hl
    · have : b₁ = false := by
        by_contra hb
        exact hne (h1.mp (by simpa using hb) l w hl p hp)
      rw [this]; rfl
    · have : b₂ = false := by
        by_contra hb
        exact hne (h2.mp (by simpa using hb) l w hl p hp)
      rw [this]; simp

/-- C75, the negation: the cross product of an automaton that accepts one flag diacritic and one that accepts `a` is empty: it
should map the flag diacritic to `a`. -/
theorem C75_violated : ∃ r, crossProduct B (single "@P.F.V@".toList "@P.F.V@".toList) (single ['a'] ['a']) = .ok r ∧
    Relates (single "@P.F.V@".toList "@P.F.V@".toList) ["@P.F.V@".toList] ["@P.F.V@".toList] 0 ∧
    Relates (single ['a'] ['a']) [['a']] [['a']] 0 ∧ ∀ w, ¬ Relates r ["@P.F.V@".toList] [['a']] w := by
  have m1 := symbol_means (x := "@P.F.V@".toList) (by decide) (by decide) (by decide)
  have m2 := symbol_means (x := ['a']) (by decide) (by decide) (by decide)
  have auto : ∀ {x : Sym}, (∀ l w, Means (single x x) l w ↔ 0 ≤ w ∧ l = [(x, x)]) → Automaton (single x x) := by
    intro x hm l w hl p hp
    rw [((hm l w).mp hl).2, List.mem_singleton] at hp
    rw [hp]
  have u1 : Usual (single "@P.F.V@".toList "@P.F.V@".toList) := single_usual (by decide) (by decide) Iff.rfl
  have u2 : Usual (single ['a'] ['a']) := single_usual (by decide) (by decide) Iff.rfl
  obtain ⟨b₁, e1, h1⟩ := projectsToItself_spec hB u1
  obtain ⟨b₂, e2, h2⟩ := projectsToItself_spec hB u2
  obtain ⟨r, e3, _, _, hr⟩ := crossBody_spec hB u1 u2 (single_plain (by decide) (by decide)) (single_plain (by decide) (by decide))
    (auto m1) (auto m2)
  refine ⟨r, ?_, ⟨_, (m1 _ _).mpr ⟨Int.le_refl _, rfl⟩, by decide, by decide⟩, ⟨_, (m2 _ _).mpr ⟨Int.le_refl _, rfl⟩, by decide, by decide⟩, ?_⟩
  · unfold crossProduct
    rw [e1, e2]
    simp only [Outcome.bind]
    rw [h1.mpr (auto m1), h2.mpr (auto m2)]
    exact e3
  · intro w hrel
    have := ((hr _ _ w (by decide) (by decide)).mp hrel).1 _ (List.mem_singleton.mpr rfl)
    exact absurd this.1.2.2.2.1 (by decide)

end

/-! ## A concrete case -/

theorem single_automaton {x : Sym} (h1 : x ≠ epsilon) (h2 : x ≠ unknown) (h3 : x ≠ identity) : Automaton (single x x) := by
  intro l w hl p hp
  rw [((symbol_means h1 h2 h3 l w).mp hl).2, List.mem_singleton] at hp
  rw [hp]

theorem identity_automaton : Automaton (single identity identity) := by
  intro l w hl p hp
  obtain ⟨_, x, rfl, _⟩ := (identity_means l w).mp hl
  rw [List.mem_singleton] at hp
  rw [hp]

/-- Any symbol times `a`: also a symbol that neither automaton knows is mapped to `a`. -/
example : ∃ r, crossProduct reference (single identity identity) (single ['a'] ['a']) = .ok r ∧ Relates r [['z']] [['a']] 0 ∧
    Relates r [['a']] [['a']] 0 ∧ ¬ Relates r [['a']] [['z']] 0 := by
  obtain ⟨r, e, _, _, hr⟩ := C75_partial reference_ok (single identity identity) (single ['a'] ['a'])
    (single_usual (by decide) (by decide) Iff.rfl) (single_usual (by decide) (by decide) Iff.rfl)
    (single_plain (by decide) (by decide)) (single_plain (by decide) (by decide)) identity_automaton
    (single_automaton (by decide) (by decide) (by decide))
  have oa : Ordinary ['a'] := by unfold Ordinary; decide
  have oz : Ordinary ['z'] := by unfold Ordinary; decide
  have am : Relates (single ['a'] ['a']) [['a']] [['a']] 0 :=
    ⟨_, (symbol_means (by decide) (by decide) (by decide) _ _).mpr ⟨Int.le_refl _, rfl⟩, by decide, by decide⟩
  have im : ∀ {x : Sym}, Ordinary x → Relates (single identity identity) [x] [x] 0 := by
    intro x hx
    have hne : epsilon ∉ [x] := fun h => hx.1 (List.mem_singleton.mp h).symm
    exact ⟨[x].map fun x => (x, x), (identity_means _ _).mpr ⟨Int.le_refl _, x, rfl, hx⟩, ins_dup _ hne, outs_dup _ hne⟩
  have hord : ∀ {x y : Sym}, Ordinary x → Ordinary y → x ≠ "@_MARK_@".toList → y ≠ "@_MARK_@".toList →
      ∀ z ∈ [x] ++ [y], Ordinary z ∧ z ≠ "@_MARK_@".toList := by
    intro x y hx hy h1 h2 z hz
    simp only [List.singleton_append, List.mem_cons, List.not_mem_nil, or_false] at hz
    rcases hz with rfl | rfl
    · exact ⟨hx, h1⟩
    · exact ⟨hy, h2⟩
  refine ⟨r, e, (hr _ _ _ (hord oz oa (by decide) (by decide))).mpr ⟨0, 0, im oz, am, by omega⟩,
    (hr _ _ _ (hord oa oa (by decide) (by decide))).mpr ⟨0, 0, im oa, am, by omega⟩, fun h => ?_⟩
  obtain ⟨_, w₂, _, ⟨l, hl, h1, _⟩, _⟩ := (hr _ _ _ (hord oa oz (by decide) (by decide))).mp h
  rw [((symbol_means (by decide) (by decide) (by decide) _ _).mp hl).2] at h1
  exact absurd h1 (by decide)

/-- The cross product with a transducer that is not an automaton is refused. -/
example : crossProduct reference (single ['a'] ['a']) bcGraph = .throws :=
  (C75_throws reference_ok _ _ (single_usual (by decide) (by decide) Iff.rfl) bcGraph_usual
    (single_plain (by decide) (by decide)) bcGraph_plain).mpr
    ⟨_, _, .inr bc_means, (['b'], ['c']), by simp, by decide⟩

example : ∃ r, crossProduct reference (single "@P.F.V@".toList "@P.F.V@".toList) (single ['a'] ['a']) = .ok r ∧
    ∀ w, ¬ Relates r ["@P.F.V@".toList] [['a']] w := by
  obtain ⟨r, e, _, _, h⟩ := C75_violated reference_ok
  exact ⟨r, e, h⟩

end Hfst.Trans
