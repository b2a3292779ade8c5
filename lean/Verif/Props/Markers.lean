import Verif.Props.TwoLevel

/-!
# Operations on transducers with marker symbols

A marker is a symbol of the form `@_..._@` that the library puts in for a while.  Unknown and identity symbols do not stand for it
once it is in the alphabet.
-/
namespace Hfst.Trans
open Hfst.Basic Hfst.Lexc

/-- No pair of `l` has the symbol `m`. -/
def Avoids (m : Sym) (l : List (Sym × Sym)) : Prop := ∀ p ∈ l, p.1 ≠ m ∧ p.2 ≠ m

theorem avoids_append {m : Sym} {a b : List (Sym × Sym)} : Avoids m (a ++ b) ↔ Avoids m a ∧ Avoids m b := by
  unfold Avoids
  constructor
  · intro h
    exact ⟨fun p hp => h p (by simp [hp]), fun p hp => h p (by simp [hp])⟩
  · rintro ⟨h1, h2⟩ p hp
    rcases List.mem_append.mp hp with hp | hp
    · exact h1 p hp
    · exact h2 p hp

/-- Adding symbols takes the sequences with the new symbols away. -/
theorem addSymbols_means {g : Graph} (hg : Usual g) {ms : List Sym} (hne : [] ∉ ms) : Usual (g.addSymbols ms) ∧
    (∀ x, x ∈ (g.addSymbols ms).alphabet ↔ x ∈ g.alphabet ∨ x ∈ ms) ∧
    ∀ l w, Means (g.addSymbols ms) l w ↔ Means g l w ∧ ∀ m ∈ ms, m ∉ g.alphabet → Avoids m l := by
  induction ms generalizing g with
  | nil => exact ⟨hg, fun x => ⟨fun h => .inl h, fun h => h.elim id fun h => absurd h (by simp)⟩,
      fun l w => ⟨fun h => ⟨h, fun m hm => absurd hm (by simp)⟩, fun h => h.1⟩⟩
  | cons m ms ih =>
    have hm : m ≠ [] := fun e => hne (e ▸ List.mem_cons_self ..)
    have hms : [] ∉ ms := fun h => hne (List.mem_cons_of_mem _ h)
    have e : g.addSymbols (m :: ms) = (g.addSymbol m).addSymbols ms := rfl
    rw [e]
    by_cases hin : m ∈ g.alphabet
    · have e1 : g.addSymbol m = g := by
        unfold Graph.addSymbol setInsert
        rw [if_pos hin]
      rw [e1]
      obtain ⟨h1, h2, h3⟩ := ih hg hms
      refine ⟨h1, fun x => ?_, fun l w => ?_⟩
      · rw [h2, List.mem_cons]
        constructor
        · rintro (h | h)
          · exact .inl h
          · exact .inr (.inr h)
        · rintro (h | rfl | h)
          · exact .inl h
          · exact .inl hin
          · exact .inr h
      · rw [h3]
        refine and_congr_right fun _ => ⟨fun h x hx hn => ?_, fun h x hx hn => h x (List.mem_cons_of_mem _ hx) hn⟩
        rcases List.mem_cons.mp hx with rfl | hx
        · exact absurd hin hn
        · exact h x hx hn
    · obtain ⟨u, hal, hme⟩ := addSymbol_means hg hin hm
      obtain ⟨h1, h2, h3⟩ := ih u hms
      refine ⟨h1, fun x => ?_, fun l w => ?_⟩
      · rw [h2, hal, List.mem_cons, or_assoc]
      · rw [h3, hme]
        constructor
        · rintro ⟨⟨h4, h5⟩, h6⟩
          refine ⟨h4, fun x hx hn => ?_⟩
          rcases List.mem_cons.mp hx with rfl | hx
          · exact h5
          · by_cases hxm : x = m
            · rw [hxm]; exact h5
            · exact h6 x hx fun h => ((hal x).mp h).elim hn hxm
        · rintro ⟨h4, h5⟩
          exact ⟨⟨h4, h5 m (by simp) hin⟩, fun x hx hn => h5 x (List.mem_cons_of_mem _ hx) fun h => hn ((hal x).mpr (.inl h))⟩

/-! ## Before an operation -/

/-- The symbols that `insertMissing g h true` puts in. -/
def missing (g h : Graph) : List Sym := h.alphabet.filter fun x => decide (x ∉ g.alphabet) && (!true || isSpecial x)

theorem mem_missing {g h : Graph} {x : Sym} : x ∈ missing g h ↔ x ∈ h.alphabet ∧ x ∉ g.alphabet ∧ isSpecial x = true := by
  unfold missing
  simp only [List.mem_filter, Bool.not_true, Bool.false_or, Bool.and_eq_true, decide_eq_true_eq]

theorem insertMissing_means {g h : Graph} (hg : Usual g) (hh : Usual h) : Usual (insertMissing g h true) ∧
    (∀ x, x ∈ (insertMissing g h true).alphabet ↔ x ∈ g.alphabet ∨ x ∈ h.alphabet ∧ isSpecial x = true) ∧
    ∀ l w, Means (insertMissing g h true) l w ↔
      Means g l w ∧ ∀ m ∈ h.alphabet, isSpecial m = true → m ∉ g.alphabet → Avoids m l := by
  obtain ⟨h1, h2, h3⟩ := addSymbols_means hg (ms := missing g h) fun h' => hh.nonempty (mem_missing.mp h').1
  refine ⟨h1, fun x => ?_, fun l w => ?_⟩
  · rw [show insertMissing g h true = g.addSymbols (missing g h) from rfl, h2, mem_missing]
    constructor
    · rintro (h | ⟨h, _, h'⟩)
      · exact .inl h
      · exact .inr ⟨h, h'⟩
    · rintro (h' | ⟨h', hs⟩)
      · exact .inl h'
      · by_cases hx : x ∈ g.alphabet
        · exact .inl hx
        · exact .inr ⟨h', hx, hs⟩
  · rw [show insertMissing g h true = g.addSymbols (missing g h) from rfl, h3]
    refine and_congr_right fun _ => ⟨fun h' m hm hs hn => h' m (mem_missing.mpr ⟨hm, hn, hs⟩) hn, fun h' m hm hn => ?_⟩
    obtain ⟨a, _, c⟩ := mem_missing.mp hm
    exact h' m a c hn

theorem prepare_eq (g h : Graph) : prepare g h true = (insertMissing g h true, insertMissing h (insertMissing g h true) true) := rfl

theorem prepare_specials {g h : Graph} (hg : Usual g) (hh : Usual h) :
    SameSpecials (prepare g h true).1 (prepare g h true).2 := by
  obtain ⟨u, a, _⟩ := insertMissing_means hg hh
  obtain ⟨_, a', _⟩ := insertMissing_means hh u
  intro x hx
  rw [prepare_eq]
  dsimp only
  rw [a', a]
  tauto

/-- An operation on two transducers is the operation on what they become first. -/
theorem apply_prepare {f : Graph → Graph → Graph} {g h : Graph} (hg : Usual g) (hh : Usual h) :
    apply f g h true = apply f (prepare g h true).1 (prepare g h true).2 true := by
  unfold apply
  rw [prepare_same (prepare_specials hg hh)]

theorem prepare_means {g h : Graph} (hg : Usual g) (hh : Usual h) : Usual (prepare g h true).1 ∧ Usual (prepare g h true).2 ∧
    (∀ x, x ∈ (prepare g h true).1.alphabet ∨ x ∈ (prepare g h true).2.alphabet ↔ x ∈ g.alphabet ∨ x ∈ h.alphabet) ∧
    (∀ l w, Means (prepare g h true).1 l w ↔ Means g l w ∧ ∀ m ∈ h.alphabet, isSpecial m = true → m ∉ g.alphabet → Avoids m l) ∧
    ∀ l w, Means (prepare g h true).2 l w ↔ Means h l w ∧ ∀ m ∈ g.alphabet, isSpecial m = true → m ∉ h.alphabet → Avoids m l := by
  obtain ⟨u, a, me⟩ := insertMissing_means hg hh
  obtain ⟨u', a', me'⟩ := insertMissing_means hh u
  rw [prepare_eq]
  dsimp only
  refine ⟨u, u', fun x => ?_, me, fun l w => ?_⟩
  · rw [a', a]
    tauto
  · rw [me']
    refine and_congr_right fun _ => ⟨fun h' m hm => h' m ((a m).mpr (.inl hm)), fun h' m hm hs hn => ?_⟩
    rcases (a m).mp hm with h1 | ⟨h1, _⟩
    · exact h' m h1 hs hn
    · exact absurd h1 hn

/-! ## Meaning with markers -/

/-- Markers: symbols of the form `@_..._@` that have no meaning of their own. -/
def Markers (ms : List Sym) : Prop := ∀ m ∈ ms, isSpecial m = true ∧ m ≠ epsilon ∧ m ≠ unknown ∧ m ≠ identity

theorem Markers.nonempty {ms : List Sym} (h : Markers ms) : [] ∉ ms := fun hm => absurd (h _ hm).1 (by decide)

/-- `g` is a transducer that has no other symbols of the form `@_..._@` than the usual ones and the markers `ms`, and it has the
sequences and weights of `L` when its unknown and identity symbols do not stand for markers. -/
structure DenM (ms : List Sym) (g : Graph) (L : List (Sym × Sym) → Int → Prop) : Prop where
  usual : Usual g
  plain : ∀ x, isSpecial x = true → x ∈ g.alphabet → x = epsilon ∨ x = unknown ∨ x = identity ∨ x ∈ ms
  means : ∀ l w, (Means g l w ∧ ∀ m ∈ ms, m ∉ g.alphabet → Avoids m l) ↔ L l w

theorem DenM.congr {ms : List Sym} {g : Graph} {L M : List (Sym × Sym) → Int → Prop} (h : DenM ms g L) (hi : ∀ l w, L l w ↔ M l w) :
    DenM ms g M := ⟨h.usual, h.plain, fun l w => (h.means l w).trans (hi l w)⟩

theorem Den.mark {ms : List Sym} (hms : Markers ms) {g : Graph} {L : List (Sym × Sym) → Int → Prop} (d : Den g L) :
    DenM ms g fun l w => L l w ∧ ∀ m ∈ ms, Avoids m l := by
  refine ⟨d.usual, fun x hx hm => ?_, fun l w => ?_⟩
  · rcases d.plain x hx hm with h | h | h
    · exact .inl h
    · exact .inr (.inl h)
    · exact .inr (.inr (.inl h))
  · rw [d.means]
    refine and_congr_right fun _ => ⟨fun h m hm => h m hm fun ha => ?_, fun h m hm _ => h m hm⟩
    obtain ⟨h1, h2, h3, h4⟩ := hms m hm
    rcases d.plain m h1 ha with e | e | e
    · exact h2 e
    · exact h3 e
    · exact h4 e

theorem Usual.special {g : Graph} (hg : Usual g) {x : Sym} (h : x = epsilon ∨ x = unknown ∨ x = identity) : x ∈ g.alphabet := by
  rcases h with rfl | rfl | rfl
  · exact hg.good.alpha.eps
  · exact hg.good.alpha.unk
  · exact hg.good.alpha.idn

/-- What two transducers with markers become before an operation. -/
theorem DenM.prepared {ms : List Sym} (hms : Markers ms) {g h : Graph} {L M : List (Sym × Sym) → Int → Prop} (dg : DenM ms g L)
    (dh : DenM ms h M) {al : List Sym} (hal : ∀ x, x ∈ al ↔ x ∈ g.alphabet ∨ x ∈ h.alphabet) :
    (∀ l w, (Means (prepare g h true).1 l w ∧ ∀ m ∈ ms, m ∉ al → Avoids m l) ↔ L l w) ∧
    ∀ l w, (Means (prepare g h true).2 l w ∧ ∀ m ∈ ms, m ∉ al → Avoids m l) ↔ M l w := by
  obtain ⟨_, _, _, m1, m2⟩ := prepare_means dg.usual dh.usual
  constructor
  · intro l w
    rw [m1, ← dg.means, and_assoc]
    refine and_congr_right fun _ => ⟨?_, fun h => ⟨fun m hm hs hn => ?_, fun m hm hn => h m hm fun hx => hn ((hal m).mpr (.inl hx))⟩⟩
    · rintro ⟨h1, h2⟩ m hm hn
      by_cases hx : m ∈ h.alphabet
      · exact h1 m hx (hms m hm).1 hn
      · exact h2 m hm fun e => ((hal m).mp e).elim hn hx
    · rcases dh.plain m hs hm with e | e | e | e
      · exact absurd (dg.usual.special (.inl e)) hn
      · exact absurd (dg.usual.special (.inr (.inl e))) hn
      · exact absurd (dg.usual.special (.inr (.inr e))) hn
      · exact h m e hn
  · intro l w
    rw [m2, ← dh.means, and_assoc]
    refine and_congr_right fun _ => ⟨?_, fun h => ⟨fun m hm hs hn => ?_, fun m hm hn => h m hm fun hx => hn ((hal m).mpr (.inr hx))⟩⟩
    · rintro ⟨h1, h2⟩ m hm hn
      by_cases hx : m ∈ g.alphabet
      · exact h1 m hx (hms m hm).1 hn
      · exact h2 m hm fun e => ((hal m).mp e).elim hx hn
    · rcases dg.plain m hs hm with e | e | e | e
      · exact absurd (dh.usual.special (.inl e)) hn
      · exact absurd (dh.usual.special (.inr (.inl e))) hn
      · exact absurd (dh.usual.special (.inr (.inr e))) hn
      · exact h m e hn

theorem DenM.union {ms : List Sym} {g h r : Graph} {L M : List (Sym × Sym) → Int → Prop} (dg : DenM ms g L) (dh : DenM ms h M)
    (hal : ∀ x, x ∈ r.alphabet ↔ x ∈ g.alphabet ∨ x ∈ h.alphabet) :
    ∀ x, isSpecial x = true → x ∈ r.alphabet → x = epsilon ∨ x = unknown ∨ x = identity ∨ x ∈ ms :=
  fun x hx hm => ((hal x).mp hm).elim (dg.plain x hx) (dh.plain x hx)

section
variable {B : Backend} (hB : B.Ok) {ms : List Sym} (hms : Markers ms) {g h : Graph} {L M : List (Sym × Sym) → Int → Prop}
include hB hms

theorem DenM.concat (dg : DenM ms g L) (dh : DenM ms h M) : ∃ r, concatenate B g h = .ok r ∧ DenM ms r (Cat L M) := by
  obtain ⟨u1, u2, ha, _, _⟩ := prepare_means dg.usual dh.usual
  obtain ⟨r, h1, h2, h3, h4⟩ := C73_concatenate hB _ _ u1 u2 (prepare_specials dg.usual dh.usual)
  have hal := fun x => (h3 x).trans (ha x)
  obtain ⟨m1, m2⟩ := DenM.prepared hms dg dh hal
  refine ⟨r, ?_, h2, dg.union dh hal, fun l w => ?_⟩
  · rw [← h1]
    exact apply_prepare dg.usual dh.usual
  · rw [h4]
    simp only [Cat, ← m1, ← m2]
    constructor
    · rintro ⟨⟨l₁, l₂, w₁, w₂, a, b, rfl, c⟩, d⟩
      exact ⟨l₁, l₂, w₁, w₂, ⟨a, fun m hm hn => (avoids_append.mp (d m hm hn)).1⟩, ⟨b, fun m hm hn => (avoids_append.mp (d m hm hn)).2⟩,
        rfl, c⟩
    · rintro ⟨l₁, l₂, w₁, w₂, ⟨a, a'⟩, ⟨b, b'⟩, rfl, c⟩
      exact ⟨⟨l₁, l₂, w₁, w₂, a, b, rfl, c⟩, fun m hm hn => avoids_append.mpr ⟨a' m hm hn, b' m hm hn⟩⟩

theorem DenM.disjunct (dg : DenM ms g L) (dh : DenM ms h M) :
    ∃ r, disjunct B g h = .ok r ∧ DenM ms r fun l w => L l w ∨ M l w := by
  obtain ⟨u1, u2, ha, _, _⟩ := prepare_means dg.usual dh.usual
  obtain ⟨r, h1, h2, h3, h4⟩ := C73_disjunct hB _ _ u1 u2 (prepare_specials dg.usual dh.usual)
  have hal := fun x => (h3 x).trans (ha x)
  obtain ⟨m1, m2⟩ := DenM.prepared hms dg dh hal
  refine ⟨r, ?_, h2, dg.union dh hal, fun l w => ?_⟩
  · rw [← h1]
    exact apply_prepare dg.usual dh.usual
  · rw [h4, ← m1, ← m2, or_and_right]

theorem DenM.subtract (dg : DenM ms g L) (dh : DenM ms h M) :
    ∃ r, subtract B g h = .ok r ∧ DenM ms r fun l w => L l w ∧ ¬ ∃ v, M l v := by
  obtain ⟨u1, u2, ha, _, _⟩ := prepare_means dg.usual dh.usual
  obtain ⟨r, h1, h2, h3, h4⟩ := C73_subtract hB _ _ u1 u2 (prepare_specials dg.usual dh.usual)
  have hal := fun x => (h3 x).trans (ha x)
  obtain ⟨m1, m2⟩ := DenM.prepared hms dg dh hal
  refine ⟨r, ?_, h2, dg.union dh hal, fun l w => ?_⟩
  · rw [← h1]
    exact apply_prepare dg.usual dh.usual
  · rw [h4]
    simp only [← m1, ← m2, not_exists]
    constructor
    · rintro ⟨⟨a, b⟩, c⟩
      exact ⟨⟨a, c⟩, fun v hv => b v hv.1⟩
    · rintro ⟨⟨a, c⟩, b⟩
      exact ⟨⟨a, fun v hv => b v ⟨hv, c⟩⟩, c⟩

theorem DenM.intersect (dg : DenM ms g L) (dh : DenM ms h M) :
    ∃ r, intersect B g h = .ok r ∧ DenM ms r fun l w => ∃ w₁ w₂, L l w₁ ∧ M l w₂ ∧ w₁ + w₂ ≤ w := by
  obtain ⟨u1, u2, ha, _, _⟩ := prepare_means dg.usual dh.usual
  obtain ⟨r, h1, h2, h3, h4⟩ := C73_intersect hB _ _ u1 u2 (prepare_specials dg.usual dh.usual)
  have hal := fun x => (h3 x).trans (ha x)
  obtain ⟨m1, m2⟩ := DenM.prepared hms dg dh hal
  refine ⟨r, ?_, h2, dg.union dh hal, fun l w => ?_⟩
  · rw [← h1]
    exact apply_prepare dg.usual dh.usual
  · rw [h4]
    simp only [← m1, ← m2]
    constructor
    · rintro ⟨⟨w₁, w₂, a, b, c⟩, d⟩
      exact ⟨w₁, w₂, ⟨a, d⟩, ⟨b, d⟩, c⟩
    · rintro ⟨w₁, w₂, ⟨a, d⟩, ⟨b, _⟩, c⟩
      exact ⟨⟨w₁, w₂, a, b, c⟩, d⟩

end

/-- The transducer of one marker. -/
theorem marker_den {ms : List Sym} (hms : Markers ms) {m : Sym} (hm : m ∈ ms) :
    DenM ms (single m m) fun l w => 0 ≤ w ∧ l = [(m, m)] := by
  obtain ⟨h1, h2, h3, h4⟩ := hms m hm
  have hne : m ≠ [] := fun e => hms.nonempty (e ▸ hm)
  refine ⟨single_usual hne hne Iff.rfl, fun x hx hxm => ?_, fun l w => ?_⟩
  · rcases (single_alphabet ..).mp hxm with e | e | e | e | e
    · exact .inl e
    · exact .inr (.inl e)
    · exact .inr (.inr (.inl e))
    · exact .inr (.inr (.inr (e ▸ hm)))
    · exact .inr (.inr (.inr (e ▸ hm)))
  · rw [symbol_means h2 h3 h4]
    refine ⟨fun h => h.1, fun h => ⟨h, ?_⟩⟩
    rintro x _ hn p hp
    rw [h.2, List.mem_singleton] at hp
    have : x ≠ m := fun e => hn (e ▸ (single_alphabet ..).mpr (by simp))
    rw [hp]
    exact ⟨this.symm, this.symm⟩

end Hfst.Trans
