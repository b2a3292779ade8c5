import Verif.Model.Symbols
import Verif.Lemmas.Graph
import Mathlib.Tactic.SplitIfs

/-!
# C31: symbol numbering is stable and one-to-one
-/
namespace Hfst.Symbols
open Hfst.Basic (Sym Outcome mapGet mapPut mapGet_put epsilon unknown identity)

/-- What a program can ask of the table. -/
inductive Request
  | number (x : Sym)
  | symbol (n : Nat)
  | vector (xs : List Sym)
  | data (i o : Sym)

/-- The table after a request, and the pairs of a symbol and its number that the answer shows. -/
def answer (t : Table) : Request → Table × List (Sym × Nat)
  | .number x => match getNumber t x with
    | .ok r => (r.2, [(x, r.1)])
    | _ => (t, [])
  | .symbol n => match getSymbol t n with
    | .ok x => (t, [(x, n)])
    | _ => (t, [])
  | .vector xs => match harmonizationVector t xs with
    | .ok r => (r.2, (xs.zip r.1).filter fun p => p.1 ≠ [])
    | _ => (t, [])
  | .data i o => match transitionData t i o with
    | .ok r => (r.2, [(i, r.1.1), (o, r.1.2)])
    | _ => (t, [])

/-- The table after a history of requests. -/
def after : Table → List Request → Table
  | t, [] => t
  | t, q :: qs => after (answer t q).1 qs

/-- What the answers in a history have shown. -/
def shown : Table → List Request → List (Sym × Nat)
  | _, [] => []
  | t, q :: qs => (answer t q).2 ++ shown (answer t q).1 qs

/-- What holds for the table at all times. -/
structure Inv (t : Table) : Prop where
  length : t.names.length = t.max + 1
  both : ∀ x n, mapGet t.numbers x = some n ↔ t.names[n]? = some x
  specials : t.names[0]? = some epsilon ∧ t.names[1]? = some unknown ∧ t.names[2]? = some identity
  nonempty : [] ∉ t.names

/-- Every name of the first table is one of the second with the same number. -/
def Within (t t' : Table) : Prop := ∀ (n : Nat) (x : Sym), t.names[n]? = some x → t'.names[n]? = some x

theorem Within.refl (t : Table) : Within t t := fun _ _ h => h

theorem Within.trans {a b c : Table} (h : Within a b) (h' : Within b c) : Within a c := fun n x e => h' n x (h n x e)

theorem getSymbol_ok {t : Table} {n : Nat} {x : Sym} : getSymbol t n = .ok x ↔ t.names[n]? = some x := by
  unfold getSymbol
  cases t.names[n]? <;> simp

theorem inv_start : Inv start := by
  refine ⟨rfl, ?_, ⟨rfl, rfl, rfl⟩, by decide⟩
  intro x n
  have e1 : unknown ≠ epsilon := by decide
  have e2 : identity ≠ epsilon := by decide
  have e3 : identity ≠ unknown := by decide
  unfold start
  generalize epsilon = a at *
  generalize unknown = b at *
  generalize identity = c at *
  dsimp only
  rw [mapGet_put, mapGet_put, mapGet_put]
  have hn : mapGet ([] : List (Sym × Nat)) x = none := rfl
  rw [hn]
  constructor
  · intro h
    split_ifs at h with h1 h2 h3
    · subst h1; injection h with h; subst h; rfl
    · subst h2; injection h with h; subst h; rfl
    · subst h3; injection h with h; subst h; rfl
  · intro h
    match n with
    | 0 => injection h with h; subst h; rw [if_neg e2.symm, if_neg e1.symm, if_pos rfl]
    | 1 => injection h with h; subst h; rw [if_neg e3.symm, if_pos rfl]
    | 2 => injection h with h; subst h; rw [if_pos rfl]
    | n + 3 => simp at h

theorem getNumber_inv {t t' : Table} {x : Sym} {n : Nat} (hi : Inv t) (h : getNumber t x = .ok (n, t')) :
    Inv t' ∧ Within t t' ∧ t'.names[n]? = some x ∧
      ∀ m y, t'.names[m]? = some y → t.names[m]? = some y ∨ (y, m) = (x, n) := by
  unfold getNumber at h
  split_ifs at h with hx
  cases e : mapGet t.numbers x with
  | some k =>
    rw [e] at h
    injection h with h
    obtain ⟨rfl, rfl⟩ := Prod.mk.inj h
    exact ⟨hi, .refl _, (hi.both x k).mp e, fun m y hm => .inl hm⟩
  | none =>
    rw [e] at h
    injection h with h
    obtain ⟨rfl, rfl⟩ := Prod.mk.inj h
    have hlast : (t.names ++ [x])[t.max + 1]? = some x := by rw [← hi.length]; simp
    have hw : Within t ⟨t.names ++ [x], mapPut t.numbers x (t.max + 1), t.max + 1⟩ := by
      intro n y hy
      have := (List.getElem?_eq_some_iff.mp hy).1
      show (t.names ++ [x])[n]? = some y
      rw [List.getElem?_append_left this, hy]
    have hnew : ∀ m y, (t.names ++ [x])[m]? = some y → t.names[m]? = some y ∨ (y, m) = (x, t.max + 1) := by
      intro m y hm
      by_cases hlt : m < t.names.length
      · rw [List.getElem?_append_left hlt] at hm; exact .inl hm
      · have hb := (List.getElem?_eq_some_iff.mp hm).1
        rw [List.length_append, List.length_singleton] at hb
        have : m = t.max + 1 := by rw [← hi.length]; omega
        subst this
        rw [hlast] at hm
        injection hm with hm
        exact .inr (by rw [hm])
    refine ⟨⟨by simp [hi.length], ?_, ⟨hw _ _ hi.specials.1, hw _ _ hi.specials.2.1, hw _ _ hi.specials.2.2⟩, ?_⟩, hw, hlast, hnew⟩
    · intro y m
      rw [mapGet_put]
      constructor
      · intro h
        split_ifs at h with hy
        · injection h with h; subst h hy; exact hlast
        · exact hw _ _ ((hi.both y m).mp h)
      · intro h
        rcases hnew m y h with h | h
        · have h := (hi.both y m).mpr h
          have hy : y ≠ x := fun hy => by rw [hy, e] at h; cases h
          rw [if_neg hy, h]
        · obtain ⟨rfl, rfl⟩ := Prod.mk.inj h
          rw [if_pos rfl]
    · intro h
      rcases List.mem_append.mp h with h | h
      · exact hi.nonempty h
      · exact hx (List.mem_singleton.mp h).symm

theorem getNumber_ok {t : Table} {x : Sym} (hx : x ≠ []) : ∃ n t', getNumber t x = .ok (n, t') := by
  unfold getNumber
  rw [if_neg hx]
  cases mapGet t.numbers x with
  | some k => exact ⟨_, _, rfl⟩
  | none => exact ⟨_, _, rfl⟩

theorem vector_inv : ∀ (xs : List Sym) (t : Table), Inv t → ∃ ns t', harmonizationVector t xs = .ok (ns, t') ∧ Inv t' ∧ Within t t' ∧
    ns.length = xs.length ∧
    (∀ (i : Nat) x, xs[i]? = some x → (x = [] ∧ ns[i]? = some 0) ∨ (x ≠ [] ∧ ∃ n, ns[i]? = some n ∧ t'.names[n]? = some x)) ∧
    ∀ m y, t'.names[m]? = some y → t.names[m]? = some y ∨ (y, m) ∈ (xs.zip ns).filter fun p => p.1 ≠ []
  | [], t, hi => ⟨[], t, rfl, hi, .refl _, rfl, by simp, fun m y h => .inl h⟩
  | x :: xs, t, hi => by
    rw [harmonizationVector]
    by_cases hx : x = []
    · obtain ⟨ns, t', h1, h2, h3, h4, h5, h6⟩ := vector_inv xs t hi
      rw [if_pos hx, h1]
      refine ⟨0 :: ns, t', rfl, h2, h3, by simp [h4], ?_, ?_⟩
      · intro i y hy
        cases i with
        | zero => simp at hy; subst hy; exact .inl ⟨hx, rfl⟩
        | succ i => simpa using h5 i y (by simpa using hy)
      · intro m y hm
        rcases h6 m y hm with h | h
        · exact .inl h
        · right
          rw [List.zip_cons_cons, List.filter_cons_of_neg (by simp [hx])]
          exact h
    · obtain ⟨n, t1, e⟩ := getNumber_ok (t := t) hx
      obtain ⟨k1, k2, k3, k4⟩ := getNumber_inv hi e
      obtain ⟨ns, t', h1, h2, h3, h4, h5, h6⟩ := vector_inv xs t1 k1
      rw [if_neg hx, e]
      simp only [Outcome.bind, h1]
      refine ⟨n :: ns, t', rfl, h2, k2.trans h3, by simp [h4], ?_, ?_⟩
      · intro i y hy
        cases i with
        | zero => simp at hy; subst hy; exact .inr ⟨hx, n, rfl, h3 _ _ k3⟩
        | succ i => simpa using h5 i y (by simpa using hy)
      · intro m y hm
        rw [List.zip_cons_cons, List.filter_cons_of_pos (by simp [hx])]
        rcases h6 m y hm with h | h
        · rcases k4 m y h with h | h
          · exact .inl h
          · right; rw [h]; exact List.mem_cons_self ..
        · exact .inr (List.mem_cons_of_mem _ h)

theorem data_inv {t t' : Table} {i o : Sym} {a b : Nat} (hi : Inv t) (h : transitionData t i o = .ok ((a, b), t')) :
    Inv t' ∧ Within t t' ∧ t'.names[a]? = some i ∧ t'.names[b]? = some o ∧
      ∀ m y, t'.names[m]? = some y → t.names[m]? = some y ∨ (y, m) = (i, a) ∨ (y, m) = (o, b) := by
  unfold transitionData at h
  split_ifs at h with h0
  rw [not_or] at h0
  obtain ⟨n1, t1, e1⟩ := getNumber_ok (t := t) h0.1
  obtain ⟨n2, t2, e2⟩ := getNumber_ok (t := t1) h0.2
  rw [e1] at h
  simp only [Outcome.bind, e2] at h
  injection h with h
  obtain ⟨h, ht⟩ := Prod.mk.inj h
  obtain ⟨ha, hb⟩ := Prod.mk.inj h
  subst ha hb ht
  obtain ⟨k1, k2, k3, k4⟩ := getNumber_inv hi e1
  obtain ⟨l1, l2, l3, l4⟩ := getNumber_inv k1 e2
  refine ⟨l1, k2.trans l2, l2 _ _ k3, l3, ?_⟩
  intro m y hm
  rcases l4 m y hm with h | h
  · rcases k4 m y h with h | h
    · exact .inl h
    · exact .inr (.inl h)
  · exact .inr (.inr h)

theorem answer_inv (t : Table) (hi : Inv t) (q : Request) :
    Inv (answer t q).1 ∧ Within t (answer t q).1 ∧ (∀ p ∈ (answer t q).2, (answer t q).1.names[p.2]? = some p.1) ∧
      ∀ m y, (answer t q).1.names[m]? = some y → t.names[m]? = some y ∨ (y, m) ∈ (answer t q).2 := by
  cases q with
  | number x =>
    rw [answer]
    cases e : getNumber t x with
    | ok r =>
      obtain ⟨n, t'⟩ := r
      obtain ⟨k1, k2, k3, k4⟩ := getNumber_inv hi e
      exact ⟨k1, k2, by simpa using k3, fun m y h => (k4 m y h).imp_right fun h => by simp [h]⟩
    | throws => exact ⟨hi, .refl _, by simp, fun m y h => .inl h⟩
    | undefined => exact ⟨hi, .refl _, by simp, fun m y h => .inl h⟩
  | symbol n =>
    rw [answer]
    cases e : getSymbol t n with
    | ok x => exact ⟨hi, .refl _, by simpa using getSymbol_ok.mp e, fun m y h => .inl h⟩
    | throws => exact ⟨hi, .refl _, by simp, fun m y h => .inl h⟩
    | undefined => exact ⟨hi, .refl _, by simp, fun m y h => .inl h⟩
  | vector xs =>
    obtain ⟨ns, t', h1, h2, h3, h4, h5, h6⟩ := vector_inv xs t hi
    rw [answer, h1]
    refine ⟨h2, h3, ?_, h6⟩
    intro p hp
    obtain ⟨hp, hne⟩ := List.mem_filter.mp hp
    obtain ⟨i, hi⟩ := List.getElem?_of_mem hp
    obtain ⟨ha, hb⟩ := List.getElem?_zip_eq_some.mp hi
    rcases h5 i _ ha with h | ⟨_, n, hn, hm⟩
    · simp [h.1] at hne
    · rw [hb] at hn
      injection hn with hn
      show t'.names[p.2]? = some p.1
      rw [hn]; exact hm
  | data i o =>
    rw [answer]
    cases e : transitionData t i o with
    | ok r =>
      obtain ⟨⟨a, b⟩, t'⟩ := r
      obtain ⟨k1, k2, k3, k4, k5⟩ := data_inv hi e
      exact ⟨k1, k2, by simpa using ⟨k3, k4⟩, fun m y h => (k5 m y h).imp_right fun h => by simpa using h⟩
    | throws => exact ⟨hi, .refl _, by simp, fun m y h => .inl h⟩
    | undefined => exact ⟨hi, .refl _, by simp, fun m y h => .inl h⟩

theorem after_inv : ∀ (qs : List Request) (t : Table), Inv t → Inv (after t qs) ∧ Within t (after t qs) ∧
    (∀ p ∈ shown t qs, (after t qs).names[p.2]? = some p.1) ∧
      ∀ m y, (after t qs).names[m]? = some y → t.names[m]? = some y ∨ (y, m) ∈ shown t qs
  | [], t, hi => ⟨hi, .refl _, by simp [shown], fun m y h => .inl h⟩
  | q :: qs, t, hi => by
    obtain ⟨k1, k2, k3, k4⟩ := answer_inv t hi q
    obtain ⟨l1, l2, l3, l4⟩ := after_inv qs _ k1
    rw [after, shown]
    refine ⟨l1, k2.trans l2, ?_, ?_⟩
    · intro p hp
      rcases List.mem_append.mp hp with hp | hp
      · exact l2 _ _ (k3 p hp)
      · exact l3 p hp
    · intro m y hm
      rcases l4 m y hm with h | h
      · exact (k4 m y h).imp_right fun h => List.mem_append_left _ h
      · exact .inr (List.mem_append_right _ h)

/-- Whatever was asked before: every symbol but the empty one has a number, and the number stands for the symbol. -/
theorem C31_number (qs : List Request) (x : Sym) (hx : x ≠ []) :
    ∃ n t', getNumber (after start qs) x = .ok (n, t') ∧ getSymbol t' n = .ok x := by
  obtain ⟨n, t', e⟩ := getNumber_ok (t := after start qs) hx
  exact ⟨n, t', e, getSymbol_ok.mpr (getNumber_inv (after_inv qs start inv_start).1 e).2.2.1⟩

/-- A number and a symbol that an answer has shown together belong together after any further requests: asking for the number
of the symbol gives the number, without a new entry, and asking for the symbol of the number gives the symbol. -/
theorem C31_stable (qs qs' : List Request) (x : Sym) (n : Nat) (h : (x, n) ∈ shown start qs) :
    getNumber (after start (qs ++ qs')) x = .ok (n, after start (qs ++ qs')) ∧
      getSymbol (after start (qs ++ qs')) n = .ok x := by
  have happ : ∀ (qs qs' : List Request) (t : Table), after t (qs ++ qs') = after (after t qs) qs' := by
    intro qs
    induction qs with
    | nil => intro _ _; rfl
    | cons q qs ih => intro qs' t; exact ih _ _
  obtain ⟨k1, k2, k3, k4⟩ := after_inv qs start inv_start
  obtain ⟨l1, l2, l3, l4⟩ := after_inv qs' _ k1
  rw [happ]
  have hn := l2 _ _ (k3 _ h)
  dsimp only at hn
  refine ⟨?_, getSymbol_ok.mpr hn⟩
  unfold getNumber
  rw [if_neg, (l1.both x n).mpr hn]
  rintro rfl
  exact l1.nonempty (List.mem_of_getElem? hn)

/-- In one history, a symbol has one number and a number has one symbol. -/
theorem C31_injective (qs : List Request) (x y : Sym) (m n : Nat) (hx : (x, m) ∈ shown start qs) (hy : (y, n) ∈ shown start qs) :
    x = y ↔ m = n := by
  obtain ⟨k1, k2, k3, k4⟩ := after_inv qs start inv_start
  have h1 := k3 _ hx
  have h2 := k3 _ hy
  dsimp only at h1 h2
  constructor
  · rintro rfl
    have e1 := (k1.both x m).mpr h1
    have e2 := (k1.both x n).mpr h2
    rw [e1] at e2
    injection e2
  · rintro rfl
    rw [h1] at h2
    injection h2

/-- Epsilon, unknown and identity are 0, 1 and 2 at all times. -/
theorem C31_specials (qs : List Request) :
    let t := after start qs
    getNumber t "@_EPSILON_SYMBOL_@".toList = .ok (0, t) ∧ getNumber t "@_UNKNOWN_SYMBOL_@".toList = .ok (1, t) ∧
    getNumber t "@_IDENTITY_SYMBOL_@".toList = .ok (2, t) ∧ getSymbol t 0 = .ok "@_EPSILON_SYMBOL_@".toList ∧
    getSymbol t 1 = .ok "@_UNKNOWN_SYMBOL_@".toList ∧ getSymbol t 2 = .ok "@_IDENTITY_SYMBOL_@".toList := by
  obtain ⟨k1, k2, k3, k4⟩ := after_inv qs start inv_start
  obtain ⟨s1, s2, s3⟩ := k1.specials
  have key : ∀ x n, x ≠ [] → (after start qs).names[n]? = some x → getNumber (after start qs) x = .ok (n, after start qs) := by
    intro x n hx h
    unfold getNumber
    rw [if_neg hx, (k1.both x n).mpr h]
  exact ⟨key epsilon 0 (by decide) s1, key unknown 1 (by decide) s2, key identity 2 (by decide) s3, getSymbol_ok.mpr s1,
    getSymbol_ok.mpr s2, getSymbol_ok.mpr s3⟩

/-- A number that was never given is refused, and so is the empty symbol. -/
theorem C31_refused (qs : List Request) (n : Nat) (hn : 2 < n) (h : ∀ x, (x, n) ∉ shown start qs) :
    getSymbol (after start qs) n = .throws ∧ getNumber (after start qs) [] = .throws := by
  refine ⟨?_, by simp [getNumber]⟩
  unfold getSymbol
  cases e : (after start qs).names[n]? with
  | none => rfl
  | some x =>
    rcases (after_inv qs start inv_start).2.2.2 n x e with h' | h'
    · have := (List.getElem?_eq_some_iff.mp h').1
      simp [start] at this
      omega
    · exact absurd h' (h x)

/-- Converting a back-end's numbering: every entry is the number of the symbol at that place; the empty symbol, which some places
have, becomes 0.  All later questions agree with it. -/
theorem C31_vector (qs : List Request) (xs : List Sym) :
    ∃ ns t', harmonizationVector (after start qs) xs = .ok (ns, t') ∧ ns.length = xs.length ∧
      ∀ (i : Nat) x, xs[i]? = some x → if x = [] then ns[i]? = some 0 else
        ∃ n, ns[i]? = some n ∧ getNumber t' x = .ok (n, t') ∧ getSymbol t' n = .ok x := by
  obtain ⟨ns, t', h1, h2, h3, h4, h5, h6⟩ := vector_inv xs _ (after_inv qs start inv_start).1
  refine ⟨ns, t', h1, h4, ?_⟩
  intro i x hx
  rcases h5 i x hx with ⟨h, h'⟩ | ⟨h, n, hn, hm⟩
  · rw [if_pos h]; exact h'
  · rw [if_neg h]
    refine ⟨n, hn, ?_, getSymbol_ok.mpr hm⟩
    unfold getNumber
    rw [if_neg h, (h2.both x n).mpr hm]

theorem reverseEntries_ok (t : Table) (symbols : List (Sym × Nat)) : ∀ is : List Nat, (∀ i ∈ is, i < t.names.length) →
    ∃ v, reverseEntries t symbols is = .ok v ∧ v.length = is.length ∧
      ∀ (k i : Nat), is[k]? = some i → ∃ x, t.names[i]? = some x ∧ v[k]? = some ((mapGet symbols x).getD 0)
  | [], _ => ⟨[], rfl, rfl, by simp⟩
  | i :: is, h => by
    obtain ⟨v, h1, h2, h3⟩ := reverseEntries_ok t symbols is fun j hj => h j (List.mem_cons_of_mem _ hj)
    have hlt := h i (List.mem_cons_self ..)
    have hi : t.names[i]? = some t.names[i] := List.getElem?_eq_getElem hlt
    rw [reverseEntries, getSymbol_ok.mpr hi]
    simp only [Outcome.bind, h1]
    refine ⟨_, rfl, by simp [h2], ?_⟩
    intro k j hj
    cases k with
    | zero => simp at hj; subst hj; exact ⟨_, hi, rfl⟩
    | succ k => simpa using h3 k j (by simpa using hj)

/-- Converting to a back-end's numbering: the entry for the number of a symbol is the back-end's number of that symbol, and 0 if
it has none. -/
theorem C31_reverse (qs : List Request) (symbols : List (Sym × Nat)) : ∃ v, reverseVector (after start qs) symbols = .ok v ∧
    ∀ x n, getSymbol (after start qs) n = .ok x → v[n]? = some ((mapGet symbols x).getD 0) := by
  obtain ⟨k1, k2, k3, k4⟩ := after_inv qs start inv_start
  obtain ⟨v, h1, h2, h3⟩ := reverseEntries_ok (after start qs) symbols (List.range ((after start qs).max + 1))
    (by intro i hi; rw [k1.length]; exact List.mem_range.mp hi)
  refine ⟨v, h1, ?_⟩
  intro x n hx
  have hx := getSymbol_ok.mp hx
  have hlt := (List.getElem?_eq_some_iff.mp hx).1
  rw [k1.length] at hlt
  obtain ⟨y, hy, hv⟩ := h3 n n (by rw [List.getElem?_range hlt])
  rw [hx] at hy
  injection hy with hy
  subst hy
  exact hv

/-- A history with a vector that has an empty place, a repeated symbol, a refused request and transition data. -/
def someHistory : List Request :=
  [.number ['a'], .vector [unknown, [], ['b'], ['a']], .number [], .symbol 9, .data ['c'] ['b'], .symbol 3]

example : shown start someHistory =
    [(['a'], 3), (unknown, 1), (['b'], 4), (['a'], 3), (['c'], 5), (['b'], 4), (['a'], 3)] := by decide

example : ∀ x, (x, 6) ∉ shown start someHistory := by
  rw [show shown start someHistory =
    [(['a'], 3), (unknown, 1), (['b'], 4), (['a'], 3), (['c'], 5), (['b'], 4), (['a'], 3)] by decide]
  simp

end Hfst.Symbols
