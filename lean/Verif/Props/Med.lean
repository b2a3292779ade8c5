import Verif.Model.Med
import Mathlib.Tactic.SplitIfs
import Mathlib.Data.List.Infix

/-!
# Alignment of the two sides of a lexc entry (C47)
-/
namespace Hfst.Med
open Hfst.StdString Hfst.Basic

/-! ## Specification -/

/-- Two lists of symbols are an alignment of two sides: they have the same length, are the sides once the epsilons are left
out, and never have two different symbols at the same place. -/
structure IsAlignment (s1 s2 up low : List Sym) : Prop where
  length : up.length = low.length
  upper : up.filter (· ≠ epsilon) = s1
  lower : low.filter (· ≠ epsilon) = s2
  agree : ∀ p ∈ up.zip low, p.1 ≠ epsilon → p.2 ≠ epsilon → p.1 = p.2

/-- The number of epsilons on both sides. -/
def epsilons (up low : List Sym) : Nat := up.count epsilon + low.count epsilon

/-! ## The table -/

/-- The entries of the table as a function of the position. -/
def cell (s1 s2 : List Sym) : Nat → Nat → Cell
  | 0, j => (j, .insert)
  | i + 1, 0 => (i + 1, .delete)
  | i + 1, j + 1 =>
    choose (s1[i]?.getD []) (s2[j]?.getD []) (cell s1 s2 i j).1 (cell s1 s2 (i + 1) j).1 (cell s1 s2 i (j + 1)).1

theorem rowGo_eq (s1 s2 : List Sym) (i : Nat) (a : Sym) (ha : s1[i]? = some a) : ∀ (bs : List Sym) (j : Nat),
    s2.drop j = bs →
      rowGo a (cell s1 s2 (i + 1) j) bs ((List.range' j (bs.length + 1)).map (cell s1 s2 i)) =
        (List.range' (j + 1) bs.length).map (cell s1 s2 (i + 1))
  | [], j, _ => by simp [rowGo]
  | b :: bs, j, h => by
    have hb : s2[j]? = some b := by
      have := congrArg (fun l : List Sym => l[0]?) h
      simpa using this
    have hr : s2.drop (j + 1) = bs := by
      rw [← List.drop_drop, h]; rfl
    have hc : choose a b (cell s1 s2 i j).1 (cell s1 s2 (i + 1) j).1 (cell s1 s2 i (j + 1)).1 =
        cell s1 s2 (i + 1) (j + 1) := by
      conv_rhs => rw [cell]
      rw [ha, hb]; rfl
    have ih := rowGo_eq s1 s2 i a ha bs (j + 1) hr
    simp only [List.length_cons, List.range'_succ, List.map_cons] at ih ⊢
    rw [rowGo, hc, ih]

theorem rows_eq (s1 s2 : List Sym) : ∀ (t : List Sym) (i : Nat), s1.drop i = t →
    rows s2 i ((List.range' 0 (s2.length + 1)).map (cell s1 s2 i)) t =
      (List.range' i (t.length + 1)).map fun k => (List.range' 0 (s2.length + 1)).map (cell s1 s2 k)
  | [], i, _ => by simp [rows]
  | a :: t, i, h => by
    have ha : s1[i]? = some a := by
      have := congrArg (fun l : List Sym => l[0]?) h
      simpa using this
    have ht : s1.drop (i + 1) = t := by
      rw [← List.drop_drop, h]; rfl
    have ih := rows_eq s1 s2 t (i + 1) ht
    have hrow : (i + 1, Dir.delete) :: rowGo a (i + 1, .delete) s2 ((List.range' 0 (s2.length + 1)).map (cell s1 s2 i)) =
        (List.range' 0 (s2.length + 1)).map (cell s1 s2 (i + 1)) := by
      have := rowGo_eq s1 s2 i a ha s2 0 rfl
      have h0 : cell s1 s2 (i + 1) 0 = (i + 1, .delete) := by rw [cell]
      rw [h0] at this
      rw [this, List.range'_succ, List.map_cons, h0]
    rw [rows, hrow, ih, List.length_cons, List.range'_succ (n := t.length + 1), List.map_cons]

theorem table_eq (s1 s2 : List Sym) : table s1 s2 =
    (List.range' 0 (s1.length + 1)).map fun k => (List.range' 0 (s2.length + 1)).map (cell s1 s2 k) := by
  unfold table
  have h : (List.range (s2.length + 1)).map (fun j => ((j, Dir.insert) : Cell)) =
      (List.range' 0 (s2.length + 1)).map (cell s1 s2 0) := by
    rw [List.range_eq_range']
    apply List.map_congr_left
    intro j _
    rw [cell]
  rw [h]
  exact rows_eq s1 s2 s1 0 rfl

theorem dirAt_eq (s1 s2 : List Sym) {x y : Nat} (hx : x ≤ s1.length) (hy : y ≤ s2.length) :
    dirAt (table s1 s2) x y = some (cell s1 s2 x y).2 := by
  rw [table_eq]
  unfold dirAt
  have h1 : x < s1.length + 1 := by omega
  have h2 : y < s2.length + 1 := by omega
  simp [h1, h2]

theorem choose_le (a b : Sym) (p l u : Nat) : (choose a b p l u).1 ≤ l + 1 ∧ (choose a b p l u).1 ≤ u + 1 ∧
    (a = b → (choose a b p l u).1 ≤ p) := by
  unfold choose
  dsimp only
  split_ifs <;> refine ⟨?_, ?_, ?_⟩ <;> simp_all <;> omega

theorem cell_ins (s1 s2 : List Sym) (i j : Nat) : (cell s1 s2 i (j + 1)).1 ≤ (cell s1 s2 i j).1 + 1 := by
  cases i with
  | zero => rw [cell, cell]
  | succ i => rw [cell]; exact (choose_le _ _ _ _ _).1

theorem cell_del (s1 s2 : List Sym) (i j : Nat) : (cell s1 s2 (i + 1) j).1 ≤ (cell s1 s2 i j).1 + 1 := by
  cases j with
  | zero => cases i <;> simp [cell]
  | succ j => conv_lhs => rw [cell]
              exact (choose_le _ _ _ _ _).2.1

/-- Different symbols are never substituted: an insertion and a deletion are cheaper. -/
theorem substitute_eq {a b : Sym} {p l u : Nat} (hl : l ≤ p + 1) (h : (choose a b p l u).2 = .substitute) :
    a = b ∧ (choose a b p l u).1 = p := by
  unfold choose at h ⊢
  dsimp only at h ⊢
  split_ifs at h ⊢ <;> simp_all <;> omega

theorem delete_eq {a b : Sym} {p l u : Nat} (h : (choose a b p l u).2 = .delete) : (choose a b p l u).1 = u + 1 := by
  unfold choose at h ⊢
  dsimp only at h ⊢
  split_ifs at h ⊢ <;> simp_all

theorem insert_eq {a b : Sym} {p l u : Nat} (h : (choose a b p l u).2 = .insert) : (choose a b p l u).1 = l + 1 := by
  unfold choose at h ⊢
  dsimp only at h ⊢
  split_ifs at h ⊢ <;> simp_all

/-! ## Reading the table -/

/-- What reading back gives for the first `x` and `y` symbols. -/
structure Good (s1 s2 : List Sym) (x y : Nat) (l : List (Sym × Sym)) : Prop where
  upper : (l.map Prod.fst).filter (· ≠ epsilon) = s1.take x
  lower : (l.map Prod.snd).filter (· ≠ epsilon) = s2.take y
  agree : ∀ p ∈ l, p.1 ≠ epsilon → p.2 ≠ epsilon → p.1 = p.2
  cost : epsilons (l.map Prod.fst) (l.map Prod.snd) = (cell s1 s2 x y).1

theorem good_sub {s1 s2 : List Sym} (h1 : epsilon ∉ s1) {x y : Nat} {l : List (Sym × Sym)} {a : Sym}
    (ha : s1[x]? = some a) (hb : s2[y]? = some a) (h : Good s1 s2 x y l)
    (hc : (cell s1 s2 (x + 1) (y + 1)).1 = (cell s1 s2 x y).1) : Good s1 s2 (x + 1) (y + 1) (l ++ [(a, a)]) := by
  have n1 : a ≠ epsilon := fun e => h1 (e ▸ List.mem_of_getElem? ha)
  constructor
  · rw [List.map_append, List.filter_append, h.upper, List.take_add_one, ha]; simp [n1]
  · rw [List.map_append, List.filter_append, h.lower, List.take_add_one, hb]; simp [n1]
  · intro p hp
    rcases List.mem_append.mp hp with hp | hp
    · exact h.agree p hp
    · simp only [List.mem_singleton] at hp; subst hp; intro _ _; rfl
  · rw [hc, ← h.cost]; unfold epsilons
    simp [List.count_append, n1]

theorem good_ins {s1 s2 : List Sym} (h2 : epsilon ∉ s2) {x y : Nat} {l : List (Sym × Sym)} {b : Sym}
    (hb : s2[y]? = some b) (h : Good s1 s2 x y l)
    (hc : (cell s1 s2 x (y + 1)).1 = (cell s1 s2 x y).1 + 1) : Good s1 s2 x (y + 1) (l ++ [(epsilon, b)]) := by
  have n1 : b ≠ epsilon := fun e => h2 (e ▸ List.mem_of_getElem? hb)
  constructor
  · rw [List.map_append, List.filter_append, h.upper]; simp
  · rw [List.map_append, List.filter_append, h.lower, List.take_add_one, hb]; simp [n1]
  · intro p hp
    rcases List.mem_append.mp hp with hp | hp
    · exact h.agree p hp
    · simp only [List.mem_singleton] at hp; subst hp; intro h _; exact absurd rfl h
  · rw [hc, ← h.cost]; unfold epsilons
    simp [List.count_append, n1]; omega

theorem good_del {s1 s2 : List Sym} (h1 : epsilon ∉ s1) {x y : Nat} {l : List (Sym × Sym)} {a : Sym}
    (ha : s1[x]? = some a) (h : Good s1 s2 x y l)
    (hc : (cell s1 s2 (x + 1) y).1 = (cell s1 s2 x y).1 + 1) : Good s1 s2 (x + 1) y (l ++ [(a, epsilon)]) := by
  have n1 : a ≠ epsilon := fun e => h1 (e ▸ List.mem_of_getElem? ha)
  constructor
  · rw [List.map_append, List.filter_append, h.upper, List.take_add_one, ha]; simp [n1]
  · rw [List.map_append, List.filter_append, h.lower]; simp
  · intro p hp
    rcases List.mem_append.mp hp with hp | hp
    · exact h.agree p hp
    · simp only [List.mem_singleton] at hp; subst hp; intro _ h; exact absurd rfl h
  · rw [hc, ← h.cost]; unfold epsilons
    simp [List.count_append, n1]; omega

theorem trace_good {s1 s2 : List Sym} (h1 : epsilon ∉ s1) (h2 : epsilon ∉ s2) : ∀ (n x y : Nat), x + y ≤ n →
    x ≤ s1.length → y ≤ s2.length → ∃ l, trace (table s1 s2) s1 s2 n x y = .ok l ∧ Good s1 s2 x y l := by
  intro n
  induction n with
  | zero =>
    intro x y hn _ _
    obtain ⟨rfl, rfl⟩ : x = 0 ∧ y = 0 := by omega
    exact ⟨[], rfl, by simp, by simp, by simp, by simp [epsilons, cell]⟩
  | succ n ih =>
    intro x y hn hx hy
    match x, y with
    | 0, 0 => exact ⟨[], rfl, by simp, by simp, by simp, by simp [epsilons, cell]⟩
    | 0, y + 1 =>
      obtain ⟨l, e, g⟩ := ih 0 y (by omega) hx (by omega)
      have hb : s2[y]? = some (s2[y]'(by omega)) := List.getElem?_eq_getElem _
      refine ⟨_, ?_, good_ins h2 hb g (by simp [cell])⟩
      have hd := dirAt_eq s1 s2 hx hy
      rw [cell] at hd
      simp [trace, hd, e, hb]
    | x + 1, 0 =>
      obtain ⟨l, e, g⟩ := ih x 0 (by omega) (by omega) hy
      have ha : s1[x]? = some (s1[x]'(by omega)) := List.getElem?_eq_getElem _
      refine ⟨_, ?_, good_del h1 ha g (by cases x <;> simp [cell])⟩
      have hd := dirAt_eq s1 s2 hx hy
      rw [cell] at hd
      simp [trace, hd, e, ha]
    | x + 1, y + 1 =>
      have ha : s1[x]? = some (s1[x]'(by omega)) := List.getElem?_eq_getElem _
      have hb : s2[y]? = some (s2[y]'(by omega)) := List.getElem?_eq_getElem _
      have hcell : cell s1 s2 (x + 1) (y + 1) = choose (s1[x]'(by omega)) (s2[y]'(by omega)) (cell s1 s2 x y).1
          (cell s1 s2 (x + 1) y).1 (cell s1 s2 x (y + 1)).1 := by
        rw [cell, ha, hb]; rfl
      have hd := dirAt_eq s1 s2 hx hy
      cases hk : (cell s1 s2 (x + 1) (y + 1)).2 with
      | substitute =>
        obtain ⟨l, e, g⟩ := ih x y (by omega) (by omega) (by omega)
        have hs := substitute_eq (cell_del s1 s2 x y) (by rw [← hcell]; exact hk)
        refine ⟨_, ?_, good_sub h1 ha (by rw [hb, hs.1]) g (by rw [hcell]; exact hs.2)⟩
        rw [hk] at hd
        simp [trace, hd, e, ha, hb, hs.1]
      | delete =>
        obtain ⟨l, e, g⟩ := ih x (y + 1) (by omega) (by omega) hy
        refine ⟨_, ?_, good_del h1 ha g (by
          conv_lhs => rw [hcell]
          exact delete_eq (by rw [← hcell]; exact hk))⟩
        rw [hk] at hd
        simp [trace, hd, e, ha]
      | insert =>
        obtain ⟨l, e, g⟩ := ih (x + 1) y (by omega) hx (by omega)
        refine ⟨_, ?_, good_ins h2 hb g (by
          conv_lhs => rw [hcell]
          exact insert_eq (by rw [← hcell]; exact hk))⟩
        rw [hk] at hd
        simp [trace, hd, e, hb]

/-! ## No alignment has fewer epsilons -/

theorem next_of_prefix {s l : List Sym} {a : Sym} (h : l ++ [a] <+: s) : s[l.length]? = some a := by
  obtain ⟨t, rfl⟩ := h
  simp

theorem lower_bound (s1 s2 : List Sym) (l : List (Sym × Sym)) :
    (∀ p ∈ l, p.1 ≠ epsilon → p.2 ≠ epsilon → p.1 = p.2) →
    (l.map Prod.fst).filter (· ≠ epsilon) <+: s1 → (l.map Prod.snd).filter (· ≠ epsilon) <+: s2 →
    (cell s1 s2 ((l.map Prod.fst).filter (· ≠ epsilon)).length ((l.map Prod.snd).filter (· ≠ epsilon)).length).1 ≤
      epsilons (l.map Prod.fst) (l.map Prod.snd) := by
  induction l using List.reverseRecOn with
  | nil => intro _ _ _; simp [cell]
  | append_singleton l p ih =>
    obtain ⟨a, b⟩ := p
    intro hag hu hl
    have ih := ih fun p hp => hag p (List.mem_append_left _ hp)
    simp only [List.map_append, List.filter_append, List.map_cons, List.map_nil, epsilons, List.count_append] at hu hl ⊢
    unfold epsilons at ih
    generalize hU : (l.map Prod.fst).filter (· ≠ epsilon) = U at *
    generalize hL : (l.map Prod.snd).filter (· ≠ epsilon) = L at *
    have ih := ih ((List.prefix_append _ _).trans hu) ((List.prefix_append _ _).trans hl)
    by_cases ha : a = epsilon <;> by_cases hb : b = epsilon
    · subst ha hb
      simp [List.count_singleton] at *; omega
    · subst ha
      have := cell_ins s1 s2 U.length L.length
      simp [List.count_singleton, hb] at *; omega
    · subst hb
      have := cell_del s1 s2 U.length L.length
      simp [List.count_singleton, ha] at *; omega
    · have hab : a = b := hag (a, b) (by simp) ha hb
      subst hab
      simp [List.count_singleton, ha] at hu hl ⊢
      have e1 := next_of_prefix hu
      have e2 := next_of_prefix hl
      have hc : cell s1 s2 (U.length + 1) (L.length + 1) = choose a a (cell s1 s2 U.length L.length).1
          (cell s1 s2 (U.length + 1) L.length).1 (cell s1 s2 U.length (L.length + 1)).1 := by
        rw [cell, e1, e2]; rfl
      rw [hc]
      exact Nat.le_trans ((choose_le _ _ _ _ _).2.2 rfl) ih

/-! ## C47 -/

/-- For all two sides without the epsilon of the alignment the result is an alignment of them, and no alignment has fewer
epsilons. -/
theorem C47 (s1 s2 : List Sym) (h1 : epsilon ∉ s1) (h2 : epsilon ∉ s2) :
    ∃ up low, align s1 s2 = .ok (up, low) ∧ IsAlignment s1 s2 up low ∧
      ∀ up' low', IsAlignment s1 s2 up' low' → epsilons up low ≤ epsilons up' low' := by
  obtain ⟨l, e, g⟩ := trace_good h1 h2 (s1.length + s2.length) s1.length s2.length (Nat.le_refl _) (Nat.le_refl _)
    (Nat.le_refl _)
  refine ⟨l.map Prod.fst, l.map Prod.snd, by unfold align; rw [e], ⟨by simp, ?_, ?_, ?_⟩, ?_⟩
  · rw [g.upper, List.take_length]
  · rw [g.lower, List.take_length]
  · intro p hp
    rw [List.zip_map'] at hp
    obtain ⟨q, hq, rfl⟩ := List.mem_map.mp hp
    exact g.agree q hq
  · intro up' low' h
    rw [g.cost]
    have hf : (up'.zip low').map Prod.fst = up' := List.map_fst_zip (by rw [h.length])
    have hs : (up'.zip low').map Prod.snd = low' := List.map_snd_zip (by rw [h.length])
    have := lower_bound s1 s2 (up'.zip low') h.agree (by rw [hf, h.upper]) (by rw [hs, h.lower])
    rw [hf, hs, h.upper, h.lower] at this
    exact this

example : align ["a".toList, "b".toList, "c".toList] ["b".toList, "d".toList] =
    .ok (["a".toList, "b".toList, epsilon, "c".toList], [epsilon, "b".toList, "d".toList, epsilon]) := by
  decide +kernel

end Hfst.Med
