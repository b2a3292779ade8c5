import Mathlib.Data.List.Forall2
import Verif.Model.CheckAlpha
import Verif.Spec.CheckAlpha
import Verif.Lemmas.Graph

/-!
# C103: hfst-check-alpha reports the symbols that only one transducer has
-/
namespace Hfst.CheckAlpha
open Hfst.StdString Hfst.Basic

theorem mem_seen (g : Graph) (y : Sym) : y ∈ seen g ↔ Uses g y := by
  have inner : ∀ (l : List Arc) (s : List Sym), y ∈ l.foldl (fun s a => setInsert (setInsert s a.inp) a.out) s ↔
      y ∈ s ∨ ∃ a ∈ l, y = a.inp ∨ y = a.out := by
    intro l
    induction l with
    | nil => intro s; simp
    | cons a l ih =>
      intro s
      rw [List.foldl_cons, ih]
      simp only [mem_setInsert, List.mem_cons]
      constructor
      · rintro ((h | h | h) | ⟨b, hb, h⟩)
        · exact .inr ⟨a, .inl rfl, .inr h⟩
        · exact .inr ⟨a, .inl rfl, .inl h⟩
        · exact .inl h
        · exact .inr ⟨b, .inr hb, h⟩
      · rintro (h | ⟨b, rfl | hb, h⟩)
        · exact .inl (.inr (.inr h))
        · rcases h with h | h
          · exact .inl (.inr (.inl h))
          · exact .inl (.inl h)
        · exact .inr ⟨b, hb, h⟩
  have outer : ∀ (ls : List (List Arc)) (s : List Sym),
      y ∈ ls.foldl (fun s l => l.foldl (fun s a => setInsert (setInsert s a.inp) a.out) s) s ↔
      y ∈ s ∨ ∃ l ∈ ls, ∃ a ∈ l, y = a.inp ∨ y = a.out := by
    intro ls
    induction ls with
    | nil => intro s; simp
    | cons l ls ih =>
      intro s
      rw [List.foldl_cons, ih, inner]
      simp only [List.mem_cons, exists_eq_or_imp, or_assoc]
  unfold seen
  rw [outer]
  unfold Uses Graph.arcs
  constructor
  · rintro (h | ⟨l, hl, a, ha, h⟩)
    · cases h
    · obtain ⟨i, hi⟩ := List.mem_iff_getElem?.1 hl
      exact ⟨i, a, by simpa [hi] using ha, h⟩
  · rintro ⟨s, a, ha, h⟩
    cases e : g.states[s]? with
    | none => simp [e] at ha
    | some l => exact .inr ⟨l, List.mem_of_getElem? e, a, by simpa [e] using ha, h⟩

theorem minus_nil (a b : List Sym) : minus a b = [] ↔ ∀ y ∈ a, y ∈ b := by
  unfold minus
  rw [List.filter_eq_nil_iff]
  simp

theorem side_false (al : Bool) (w : Which) (a b : List Sym) : (side al w a b).2 = false ↔ ∀ y ∈ a, y ∈ b := by
  rw [← minus_nil]
  unfold side
  by_cases h : minus a b = [] <;> simp [h]

theorem comparePair_false (x y : Item) : (comparePair x y).2 = false ↔
    Same (Uses x.graph) (Uses y.graph) ∧ ∀ t, y.sigma = some t → Same (· ∈ x.sigma.getD []) (· ∈ t) := by
  have both : ∀ a b : List Sym, ((∀ z ∈ a, z ∈ b) ∧ ∀ z ∈ b, z ∈ a) ↔ Same (· ∈ a) (· ∈ b) := fun a b =>
    ⟨fun h z => ⟨h.1 z, h.2 z⟩, fun h => ⟨fun z => (h z).1, fun z => (h z).2⟩⟩
  have hs : Same (· ∈ seen x.graph) (· ∈ seen y.graph) ↔ Same (Uses x.graph) (Uses y.graph) := by
    unfold Same
    simp only [mem_seen]
  unfold comparePair
  cases y.sigma with
  | none =>
    simp only [Bool.or_eq_false_iff, side_false, both, hs]
    simp
  | some t =>
    simp only [Bool.or_eq_false_iff, side_false, Option.some.injEq, forall_eq', and_assoc]
    rw [← both _ t, ← hs, ← both]
    simp only [and_assoc]

/-- **C103, the exit code (partial)**: for archives of the same length the tool succeeds exactly if the transducers at each place have the
same symbols on their transitions and, if the second one has an alphabet, the same alphabet.  Missing: archives of different lengths
(`C103_length_violated`). -/
theorem C103_exit_partial (xs ys : List Item) (hl : xs.length = ys.length) :
    (checkAlpha xs ys).ending = .success ↔
      List.Forall₂ (fun x y => Same (Uses x.graph) (Uses y.graph) ∧ ∀ t, y.sigma = some t → Same (· ∈ x.sigma.getD []) (· ∈ t)) xs ys := by
  have h : (compareLoop xs ys).2 = false ↔
      List.Forall₂ (fun x y => Same (Uses x.graph) (Uses y.graph) ∧ ∀ t, y.sigma = some t → Same (· ∈ x.sigma.getD []) (· ∈ t)) xs ys := by
    induction xs generalizing ys with
    | nil =>
      cases ys with
      | nil => exact ⟨fun _ => .nil, fun _ => rfl⟩
      | cons y ys => cases hl
    | cons x xs ih =>
      cases ys with
      | nil => cases hl
      | cons y ys =>
        simp only [compareLoop, Bool.or_eq_false_iff, comparePair_false, List.forall₂_cons]
        rw [ih ys (by simpa using hl)]
  rw [← h]
  unfold checkAlpha
  cases h' : (compareLoop xs ys).2 <;> simp [h']

/-- **C103, the symbols printed**: for each pair of transducers, what is printed after "In first but not in second" and "In second but not
in first" is exactly that, the line is there exactly if there are such symbols, and so for the alphabets. -/
theorem C103_listed (x y : Item) (w : Which) :
    (∀ l, .only false w l ∈ (comparePair x y).1 → l ≠ [] ∧ ∀ z, z ∈ l ↔ match w with
      | .first => Uses x.graph z ∧ ¬ Uses y.graph z
      | .second => Uses y.graph z ∧ ¬ Uses x.graph z) ∧
    ((∃ l, .only false w l ∈ (comparePair x y).1) ↔ ∃ z, match w with
      | .first => Uses x.graph z ∧ ¬ Uses y.graph z
      | .second => Uses y.graph z ∧ ¬ Uses x.graph z) ∧
    (∀ s t, x.sigma = some s → y.sigma = some t → ∀ l, .only true w l ∈ (comparePair x y).1 → ∀ z, z ∈ l ↔ match w with
      | .first => z ∈ s ∧ z ∉ t
      | .second => z ∈ t ∧ z ∉ s) := by
  have hside : ∀ al w' a b al' w'' l, Line.only al' w'' l = (side al w' a b).1 ↔ al' = al ∧ w'' = w' ∧ l = minus a b ∧ minus a b ≠ [] := by
    intro al w' a b al' w'' l
    unfold side
    by_cases h : minus a b = []
    · simp [h]
    · simp [h]
  have hm : ∀ a b z, z ∈ minus a b ↔ z ∈ a ∧ z ∉ b := by
    intro a b z; unfold minus; simp
  have hmem : ∀ l, Line.only false w l ∈ (comparePair x y).1 ↔ match w with
      | .first => l = minus (seen x.graph) (seen y.graph) ∧ minus (seen x.graph) (seen y.graph) ≠ []
      | .second => l = minus (seen y.graph) (seen x.graph) ∧ minus (seen y.graph) (seen x.graph) ≠ [] := by
    intro l
    unfold comparePair
    cases y.sigma with
    | none => cases w <;> simp [hside]
    | some t => cases w <;> simp [hside]
  have hne : ∀ a b : List Sym, minus a b ≠ [] ↔ ∃ z, z ∈ a ∧ z ∉ b := by
    intro a b
    constructor
    · intro h
      obtain ⟨z, hz⟩ := List.exists_mem_of_ne_nil _ h
      exact ⟨z, (hm a b z).1 hz⟩
    · rintro ⟨z, hz⟩ h
      have := (hm a b z).2 hz
      rw [h] at this
      cases this
  refine ⟨?_, ?_, ?_⟩
  · intro l hl
    rw [hmem] at hl
    cases w <;> simp only at hl ⊢ <;> obtain ⟨rfl, h⟩ := hl <;> exact ⟨h, fun z => by rw [hm, mem_seen, mem_seen]⟩
  · constructor
    · rintro ⟨l, hl⟩
      rw [hmem] at hl
      cases w <;> simp only at hl ⊢ <;> obtain ⟨z, hz⟩ := (hne _ _).1 hl.2 <;> exact ⟨z, by rwa [mem_seen, mem_seen] at hz⟩
    · rintro ⟨z, hz⟩
      cases w <;> simp only [← mem_seen] at hz
      · exact ⟨_, (hmem _).2 ⟨rfl, (hne _ _).2 ⟨z, hz⟩⟩⟩
      · exact ⟨_, (hmem _).2 ⟨rfl, (hne _ _).2 ⟨z, hz⟩⟩⟩
  · intro s t hs ht l hl z
    clear hmem
    have : ∀ l, Line.only true w l ∈ (comparePair x y).1 ↔ match w with
        | .first => l = minus s t ∧ minus s t ≠ []
        | .second => l = minus t s ∧ minus t s ≠ [] := by
      intro l
      unfold comparePair
      simp only [hs, ht]
      cases w <;> simp [hside]
    rw [this] at hl
    cases w <;> simp only at hl ⊢ <;> obtain ⟨rfl, _⟩ := hl <;> exact hm _ _ z

/-- **C103, "superset" (violated)**: the line that the first transducer has a superset of the symbols of the second is printed exactly if
it has a *subset* of them. -/
theorem C103_superset_violated (x y : Item) :
    Line.superset false .first ∈ (comparePair x y).1 ↔ ∀ z, Uses x.graph z → Uses y.graph z := by
  have hside : ∀ al w' a b al' w'', Line.superset al' w'' = (side al w' a b).1 ↔ al' = al ∧ w'' = w' ∧ minus a b = [] := by
    intro al w' a b al' w''
    unfold side
    by_cases h : minus a b = [] <;> simp [h]
  simp only [← mem_seen]
  rw [← minus_nil]
  unfold comparePair
  cases y.sigma <;> simp [hside]

/-- **C103, archives of different lengths (violated)**: the transducers that only one of the archives has are not looked at: with
two archives that agree as far as the shorter one goes, the tool succeeds. -/
theorem C103_length_violated (xs : List Item) (more : List Item) :
    checkAlpha (xs ++ more) xs = checkAlpha xs xs ∧ checkAlpha xs (xs ++ more) = checkAlpha xs xs := by
  have h1 : ∀ a b : List Item, a.length = b.length → compareLoop (a ++ more) b = compareLoop a b := by
    intro a
    induction a with
    | nil =>
      intro b hb
      cases b with
      | nil => cases more <;> rfl
      | cons y b => cases hb
    | cons x a ih =>
      intro b hb
      cases b with
      | nil => cases hb
      | cons y b => simp only [List.cons_append, compareLoop, ih b (by simpa using hb)]
  have h2 : ∀ a b : List Item, a.length = b.length → compareLoop a (b ++ more) = compareLoop a b := by
    intro a
    induction a with
    | nil =>
      intro b hb
      cases b with
      | nil => cases more <;> rfl
      | cons y b => cases hb
    | cons x a ih =>
      intro b hb
      cases b with
      | nil => cases hb
      | cons y b => simp only [List.cons_append, compareLoop, ih b (by simpa using hb)]
  unfold checkAlpha
  rw [h1 xs xs rfl, h2 xs xs rfl]
  exact ⟨rfl, rfl⟩

/-! ## Cases that meet the hypotheses -/

/-- A transducer that accepts one symbol (an example for tools/src/hfst-check-alpha.cc:151-180). -/
def oneSymbol (c : Char) : Item := ⟨⟨[[⟨1, [c], [c], 0⟩], []], [(1, 0)], [epsilon, [c]]⟩, some [epsilon, [c]]⟩

/-- A transducer that accepts `a` and `b` (an example for tools/src/hfst-check-alpha.cc:151-180). -/
def twoSymbols : Item := ⟨⟨[[⟨1, ['a'], ['a'], 0⟩, ⟨1, ['b'], ['b'], 0⟩], []], [(1, 0)], [epsilon, ['a'], ['b']]⟩, some [epsilon, ['a'], ['b']]⟩

example : (checkAlpha [oneSymbol 'a'] [oneSymbol 'a']).ending = .success ∧ (checkAlpha [oneSymbol 'a'] [twoSymbols]).ending = .failure ∧
    (comparePair (oneSymbol 'a') twoSymbols).1 = [.superset false .first, .only false .second [['b']], .superset true .first, .only true .second [['b']]] := by
  decide +kernel

/-- The first transducer is said to have a superset, although `b` is only in the second. -/
example : Line.superset false .first ∈ (comparePair (oneSymbol 'a') twoSymbols).1 ∧ Uses twoSymbols.graph ['b'] ∧ ¬ Uses (oneSymbol 'a').graph ['b'] := by
  refine ⟨by decide +kernel, (mem_seen _ _).1 (by decide +kernel), fun h => ?_⟩
  have := (mem_seen _ _).2 h
  revert this
  decide +kernel

example : [oneSymbol 'a', twoSymbols].length = [oneSymbol 'b', twoSymbols].length ∧
    (checkAlpha [oneSymbol 'a', twoSymbols] [oneSymbol 'b', twoSymbols]).ending = .failure := by decide +kernel

end Hfst.CheckAlpha
