import Verif.Model.OlConvert
import Verif.Lemmas.Graph
import Mathlib.Data.List.Forall2
import Mathlib.Data.List.Nodup

/-!
# Optimized lookup: the tables that are made

What holds for the states, the packed index table and the transition table.
-/
namespace Hfst.Ol
open Hfst.Basic

/-! ## The states -/

/-- What holds for a state with the transitions `l`. -/
structure HolderOK (flags : List Nat) (l : List TransHolder) (p : Holder) : Prop where
  group : ∀ x, p.group x = l.filter fun t => t.input = x
  present : ∀ x, p.present x = true ↔ ∃ t ∈ l, t.input = x
  keys : (p.groups.map (·.1)).Nodup
  start : p.number = 0 → p.type = .nonsimple
  empty : p.type = .empty → p.groups = []
  zero : p.type = .zero → ∀ e ∈ p.groups, e.1 = 0 ∨ e.1 ∈ flags
  nonzero : p.type = .nonzero → ∃ x, x ≠ 0 ∧ x ∉ flags ∧ ∀ e ∈ p.groups, e.1 = x

theorem present_iff {p : Holder} {x : Nat} : p.present x = true ↔ ∃ e ∈ p.groups, e.1 = x := by
  simp [Holder.present]

theorem make_ok (flags : List Nat) (q first : Nat) (f : Option Int) : HolderOK flags [] (Holder.make q first f) := by
  refine ⟨?_, ?_, ?_, ?_, ?_, ?_, ?_⟩
  · intro x; rfl
  · intro x; simp [Holder.present, Holder.make]
  · simp [Holder.make]
  · intro h
    have h : q = 0 := h
    simp [Holder.make, h]
  · intro _; rfl
  · intro _ e he; cases he
  · intro h
    have h : (if q = 0 then IndexType.nonsimple else .empty) = .nonzero := h
    split at h <;> cases h

theorem mapGet_update {m : List (Nat × List TransHolder)} {t : TransHolder} {x : Nat} :
    mapGet (m.map fun e => if e.1 = t.input then (e.1, e.2 ++ [t]) else e) x =
      (mapGet m x).map fun v => if x = t.input then v ++ [t] else v := by
  induction m with
  | nil => rfl
  | cons e m ih =>
    obtain ⟨k, v⟩ := e
    unfold mapGet at ih ⊢
    rw [List.map_cons, List.find?_cons, List.find?_cons]
    by_cases h1 : k = t.input
    · rw [if_pos h1]
      by_cases h2 : k = x
      · subst h2
        simp [h1]
      · simp only [h2, decide_false]
        exact ih
    · rw [if_neg h1]
      by_cases h2 : k = x
      · subst h2
        simp [h1]
      · simp only [h2, decide_false]
        exact ih

theorem mapGet_snoc {m : List (Nat × List TransHolder)} {k x : Nat} {v : List TransHolder} (h : ∀ e ∈ m, e.1 ≠ k) :
    mapGet (m ++ [(k, v)]) x = if x = k then some v else mapGet m x := by
  unfold mapGet
  rw [List.find?_append]
  by_cases hx : x = k
  · subst hx
    have : m.find? (fun p => decide (p.1 = x)) = none := by
      rw [List.find?_eq_none]
      intro e he
      simpa using h e he
    simp [this]
  · rw [if_neg hx]
    have : ¬ k = x := fun h => hx h.symm
    simp [this]

theorem mapGet_none {m : List (Nat × List TransHolder)} {k : Nat} (h : ∀ e ∈ m, e.1 ≠ k) : mapGet m k = none := by
  unfold mapGet
  have : m.find? (fun p => decide (p.1 = k)) = none := by
    rw [List.find?_eq_none]
    intro e he
    simpa using h e he
  rw [this]
  rfl

theorem update_keys (m : List (Nat × List TransHolder)) (t : TransHolder) :
    (m.map fun e => if e.1 = t.input then (e.1, e.2 ++ [t]) else e).map (·.1) = m.map (·.1) := by
  rw [List.map_map]
  apply List.map_congr_left
  intro e _
  show (if e.1 = t.input then (e.1, e.2 ++ [t]) else e).1 = e.1
  split <;> rfl

/-- A property of the symbols only. -/
theorem forall_keys {m m' : List (Nat × List TransHolder)} (h : m.map (·.1) = m'.map (·.1)) {P : Nat → Prop} :
    (∀ e ∈ m, P e.1) ↔ ∀ e ∈ m', P e.1 := by
  rw [← List.forall_mem_map (f := fun e : Nat × List TransHolder => e.1) (P := P), h, List.forall_mem_map]

theorem add_ok {flags : List Nat} {l : List TransHolder} {p : Holder} (h : HolderOK flags l p) (t : TransHolder) :
    HolderOK flags (l ++ [t]) ((p.addInput flags t.input).addTransition t) := by
  by_cases hp : p.present t.input = true
  · have e : (p.addInput flags t.input).addTransition t =
        { p with groups := p.groups.map fun e => if e.1 = t.input then (e.1, e.2 ++ [t]) else e } := by
      unfold Holder.addInput Holder.addTransition
      rw [if_pos hp]
    rw [e]
    have hkeys := update_keys p.groups t
    refine ⟨?_, ?_, ?_, h.start, ?_, ?_, ?_⟩
    · intro x
      unfold Holder.group
      rw [mapGet_update, List.filter_append, ← h.group x]
      unfold Holder.group
      by_cases hx : x = t.input
      · subst hx
        obtain ⟨e, he, he'⟩ := present_iff.mp hp
        have hsome : (mapGet p.groups t.input).isSome := by
          rw [← he']
          exact mapGet_isSome_of_mem (v := e.2) he
        obtain ⟨v, hv⟩ := Option.isSome_iff_exists.mp hsome
        rw [hv]
        simp
      · have hx' : ¬ t.input = x := fun h => hx h.symm
        simp [hx, hx']
    · intro x
      rw [present_iff]
      have : (∃ e ∈ p.groups.map fun e => if e.1 = t.input then (e.1, e.2 ++ [t]) else e, e.1 = x) ↔ p.present x = true := by
        rw [present_iff]
        have := forall_keys hkeys (P := fun k => k ≠ x)
        constructor
        · intro ⟨e, he, hx⟩
          by_cases hh : ∃ e ∈ p.groups, e.1 = x
          · exact hh
          · exact absurd hx (this.mpr (fun e he hx => hh ⟨e, he, hx⟩) e he)
        · intro ⟨e, he, hx⟩
          by_cases hh : ∃ e ∈ p.groups.map fun e => if e.1 = t.input then (e.1, e.2 ++ [t]) else e, e.1 = x
          · exact hh
          · exact absurd hx (this.mp (fun e he hx => hh ⟨e, he, hx⟩) e he)
      rw [this, h.present]
      constructor
      · rintro ⟨u, hu, rfl⟩
        exact ⟨u, List.mem_append_left _ hu, rfl⟩
      · rintro ⟨u, hu, rfl⟩
        rcases List.mem_append.mp hu with hu | hu
        · exact ⟨u, hu, rfl⟩
        · rw [List.mem_singleton.mp hu]
          exact (h.present _).mp hp
    · show (List.map _ (List.map _ _)).Nodup
      rw [hkeys]
      exact h.keys
    · intro he
      show List.map _ _ = []
      rw [h.empty he]
      rfl
    · intro he
      exact (forall_keys hkeys (P := fun k => k = 0 ∨ k ∈ flags)).mpr (h.zero he)
    · intro he
      obtain ⟨x, h1, h2, h3⟩ := h.nonzero he
      exact ⟨x, h1, h2, (forall_keys hkeys (P := fun k => k = x)).mpr h3⟩
  · have hno : ∀ e ∈ p.groups, e.1 ≠ t.input := fun e he hx => hp (present_iff.mpr ⟨e, he, hx⟩)
    have hsame : p.groups.map (fun e => if e.1 = t.input then (e.1, e.2 ++ [t]) else e) = p.groups := by
      rw [List.map_congr_left (g := id), List.map_id]
      intro e he
      rw [if_neg (hno e he)]
      rfl
    have e1 : ((p.addInput flags t.input).addTransition t).groups = p.groups ++ [(t.input, [t])] := by
      unfold Holder.addInput Holder.addTransition
      rw [if_neg hp]
      dsimp only
      rw [List.map_append, hsame]
      simp
    have e2 : ((p.addInput flags t.input).addTransition t).type = match p.type with
        | .nonsimple => .nonsimple
        | .empty => if t.input = 0 ∨ t.input ∈ flags then .zero else .nonzero
        | .zero => if t.input ≠ 0 ∧ t.input ∉ flags then .nonsimple else .zero
        | .nonzero => if 1 < (p.groups ++ [(t.input, [])]).length ∨ t.input = 0 ∨ t.input ∈ flags then .nonsimple
          else .nonzero := by
      unfold Holder.addInput Holder.addTransition
      rw [if_neg hp]
      dsimp only
      cases p.type <;> rfl
    have e3 : ((p.addInput flags t.input).addTransition t).number = p.number := by
      unfold Holder.addInput Holder.addTransition
      rw [if_neg hp]
    refine ⟨?_, ?_, ?_, ?_, ?_, ?_, ?_⟩
    · intro x
      unfold Holder.group
      rw [e1, mapGet_snoc hno, List.filter_append, ← h.group x]
      unfold Holder.group
      by_cases hx : x = t.input
      · subst hx
        rw [mapGet_none hno]
        simp
      · have hx' : ¬ t.input = x := fun h => hx h.symm
        simp [hx, hx']
    · intro x
      rw [present_iff, e1]
      have := h.present x
      rw [present_iff] at this
      constructor
      · rintro ⟨e, he, rfl⟩
        rcases List.mem_append.mp he with he | he
        · obtain ⟨u, hu, hu'⟩ := this.mp ⟨e, he, rfl⟩
          exact ⟨u, List.mem_append_left _ hu, hu'⟩
        · rw [List.mem_singleton.mp he]
          exact ⟨t, by simp, rfl⟩
      · rintro ⟨u, hu, hu'⟩
        rcases List.mem_append.mp hu with hu | hu
        · obtain ⟨e, he, he'⟩ := this.mpr ⟨u, hu, hu'⟩
          exact ⟨e, List.mem_append_left _ he, he'⟩
        · rw [List.mem_singleton.mp hu] at hu'
          exact ⟨(t.input, [t]), by simp, hu'⟩
    · rw [e1, List.map_append, List.nodup_append]
      refine ⟨h.keys, by simp, ?_⟩
      intro a ha b hb
      obtain ⟨e, he, rfl⟩ := List.mem_map.mp ha
      simp only [List.map_cons, List.map_nil, List.mem_singleton] at hb
      subst hb
      exact hno e he
    · intro hq
      rw [e3] at hq
      rw [e2, h.start hq]
    · intro ht
      rw [e2] at ht
      cases hty : p.type with
      | empty => rw [hty] at ht; dsimp only at ht; split at ht <;> cases ht
      | zero => rw [hty] at ht; dsimp only at ht; split at ht <;> cases ht
      | nonzero => rw [hty] at ht; dsimp only at ht; split at ht <;> cases ht
      | nonsimple => rw [hty] at ht; cases ht
    · intro ht
      rw [e2] at ht
      rw [e1]
      cases hty : p.type with
      | empty =>
        rw [hty] at ht
        dsimp only at ht
        rw [h.empty hty]
        split at ht
        · intro e he
          simp only [List.nil_append, List.mem_singleton] at he
          rw [he]
          assumption
        · cases ht
      | zero =>
        rw [hty] at ht
        dsimp only at ht
        split at ht
        · cases ht
        · rename_i hc
          intro e he
          rcases List.mem_append.mp he with he | he
          · exact h.zero hty e he
          · rw [List.mem_singleton.mp he]
            by_cases h0 : t.input = 0
            · exact .inl h0
            · by_cases h1 : t.input ∈ flags
              · exact .inr h1
              · exact absurd ⟨h0, h1⟩ hc
      | nonzero => rw [hty] at ht; dsimp only at ht; split at ht <;> cases ht
      | nonsimple => rw [hty] at ht; cases ht
    · intro ht
      rw [e2] at ht
      rw [e1]
      cases hty : p.type with
      | empty =>
        rw [hty] at ht
        dsimp only at ht
        rw [h.empty hty]
        split at ht
        · cases ht
        · rename_i hc
          refine ⟨t.input, fun h => hc (.inl h), fun h => hc (.inr h), ?_⟩
          intro e he
          simp only [List.nil_append, List.mem_singleton] at he
          rw [he]
      | zero => rw [hty] at ht; dsimp only at ht; split at ht <;> cases ht
      | nonzero =>
        rw [hty] at ht
        dsimp only at ht
        split at ht
        · cases ht
        · rename_i hc
          have hlen : ¬ 1 < (p.groups ++ [(t.input, ([] : List TransHolder))]).length := fun h => hc (.inl h)
          have hnil : p.groups = [] := by
            rw [List.length_append, List.length_singleton] at hlen
            apply List.eq_nil_of_length_eq_zero
            omega
          refine ⟨t.input, fun h => hc (.inr (.inl h)), fun h => hc (.inr (.inr h)), ?_⟩
          rw [hnil]
          intro e he
          simp only [List.nil_append, List.mem_singleton] at he
          rw [he]
      | nonsimple => rw [hty] at ht; cases ht

/-- The transition with numbers for symbols. -/
def numberArc (table : List Sym) (a : Arc) : TransHolder :=
  ⟨a.target, symbolNumber table a.inp, symbolNumber table a.out, a.weight⟩

theorem addArc_same (table : List Sym) (flags : List Nat) (p : Holder) (a : Arc) :
    (p.addArc table flags a).number = p.number ∧ (p.addArc table flags a).first = p.first ∧
      (p.addArc table flags a).final = p.final ∧ (p.addArc table flags a).finalWeight = p.finalWeight := by
  unfold Holder.addArc Holder.addTransition Holder.addInput
  split <;> exact ⟨rfl, rfl, rfl, rfl⟩

theorem fold_ok (table : List Sym) (flags : List Nat) : ∀ (l : List Arc) (l0 : List TransHolder) (p : Holder), HolderOK flags l0 p →
    HolderOK flags (l0 ++ l.map (numberArc table)) (l.foldl (Holder.addArc table flags) p) ∧
      (l.foldl (Holder.addArc table flags) p).number = p.number ∧ (l.foldl (Holder.addArc table flags) p).first = p.first ∧
      (l.foldl (Holder.addArc table flags) p).final = p.final ∧
      (l.foldl (Holder.addArc table flags) p).finalWeight = p.finalWeight
  | [], l0, p, h => by simpa using h
  | a :: l, l0, p, h => by
    obtain ⟨h1, h2, h3, h4, h5⟩ := fold_ok table flags l (l0 ++ [numberArc table a]) (p.addArc table flags a) (add_ok h _)
    obtain ⟨a1, a2, a3, a4⟩ := addArc_same table flags p a
    rw [List.foldl_cons, List.map_cons]
    rw [List.append_assoc] at h1
    exact ⟨h1, h2.trans a1, h3.trans a2, h4.trans a3, h5.trans a4⟩

/-- What holds for state number `q`, which has the transitions `l`. -/
structure StateOK (table : List Sym) (flags : List Nat) (finals : List (Nat × Int)) (q first : Nat) (l : List Arc) (p : Holder) :
    Prop where
  ok : HolderOK flags (l.map (numberArc table)) p
  number : p.number = q
  first : p.first = first
  final : p.final = (mapGet finals q).isSome
  weight : p.finalWeight = (mapGet finals q).getD 0

/-- Where the transitions of the states start. -/
inductive States (table : List Sym) (flags : List Nat) (finals : List (Nat × Int)) : Nat → Nat → List (List Arc) → List Holder → Prop
  | nil {q first : Nat} : States table flags finals q first [] []
  | cons {q first : Nat} {l : List Arc} {ls : List (List Arc)} {p : Holder} {ps : List Holder} :
      StateOK table flags finals q first l p → States table flags finals (q + 1) (first + 1 + l.length) ls ps →
      States table flags finals q first (l :: ls) (p :: ps)

theorem holders_ok (table : List Sym) (flags : List Nat) (finals : List (Nat × Int)) : ∀ (ls : List (List Arc)) (q first : Nat),
    States table flags finals q first ls (holdersFrom table flags finals q first ls)
  | [], _, _ => .nil
  | l :: ls, q, first => by
    obtain ⟨h1, h2, h3, h4, h5⟩ := fold_ok table flags l [] _ (make_ok flags q first (mapGet finals q))
    exact .cons ⟨h1, h2, h3, h4, h5⟩ (holders_ok table flags finals ls _ _)

/-! ## Packing -/

theorem used_iff {u : Used} {i : Nat} : u.used i = true ↔ ∃ v, u[i]? = some (some v) := by
  unfold Used.used
  split
  · rename_i v h
    exact ⟨fun _ => ⟨v, h⟩, fun _ => rfl⟩
  · rename_i h
    exact ⟨fun h => (by cases h), fun ⟨v, hv⟩ => absurd hv (h v)⟩

theorem used_beyond {u : Used} {i : Nat} (h : u.length ≤ i) : u.used i = false := by
  rw [Bool.eq_false_iff]
  intro hu
  obtain ⟨v, hv⟩ := used_iff.mp hu
  rw [List.getElem?_eq_none h] at hv
  cases hv

theorem assign_get {u : Used} {i q s j : Nat} {v : Nat × Nat} :
    (u.assign i q s)[j]? = some (some v) ↔ (j = i ∧ v = (q, s)) ∨ (j ≠ i ∧ u[j]? = some (some v)) := by
  unfold Used.assign
  have hlen : i < (u ++ List.replicate (i + 1 - u.length) none).length := by
    rw [List.length_append, List.length_replicate]
    omega
  by_cases h : j = i
  · subst h
    rw [List.getElem?_set_self hlen]
    constructor
    · intro h
      injection h with h
      injection h with h
      exact .inl ⟨rfl, h.symm⟩
    · rintro (⟨_, h⟩ | ⟨h, _⟩)
      · rw [h]
      · exact absurd rfl h
  · rw [List.getElem?_set_ne (fun h' => h h'.symm)]
    by_cases hj : j < u.length
    · rw [List.getElem?_append_left hj]
      exact ⟨fun h' => .inr ⟨h, h'⟩, fun h' => by
        rcases h' with ⟨h', _⟩ | ⟨_, h'⟩
        · exact absurd h' h
        · exact h'⟩
    · have hj : u.length ≤ j := Nat.le_of_not_lt hj
      rw [List.getElem?_append_right hj, List.getElem?_eq_none hj, List.getElem?_replicate]
      constructor
      · intro h'
        split at h'
        · injection h' with h'; cases h'
        · cases h'
      · rintro (⟨h', _⟩ | ⟨_, h'⟩)
        · exact absurd h' h
        · cases h'

theorem assign_fold {i q : Nat} : ∀ (os : List Nat) (u : Used) {j : Nat} {v : Nat × Nat},
    (os.foldl (fun u o => u.assign (i + o + 1) q o) u)[j]? = some (some v) ↔
      (∃ o ∈ os, j = i + o + 1 ∧ v = (q, o)) ∨ ((∀ o ∈ os, j ≠ i + o + 1) ∧ u[j]? = some (some v))
  | [], u, j, v => by simp
  | o :: os, u, j, v => by
    rw [List.foldl_cons, assign_fold os]
    constructor
    · rintro (⟨o', h1, h2, h3⟩ | ⟨h1, h2⟩)
      · exact .inl ⟨o', List.mem_cons_of_mem _ h1, h2, h3⟩
      · rcases assign_get.mp h2 with ⟨h3, h4⟩ | ⟨h3, h4⟩
        · exact .inl ⟨o, List.mem_cons_self .., h3, h4⟩
        · refine .inr ⟨?_, h4⟩
          intro o' ho'
          rcases List.mem_cons.mp ho' with rfl | ho'
          · exact h3
          · exact h1 o' ho'
    · rintro (⟨o', h1, h2, h3⟩ | ⟨h1, h2⟩)
      · by_cases h : ∃ o'' ∈ os, j = i + o'' + 1
        · obtain ⟨o'', h4, h5⟩ := h
          have : o'' = o' := by omega
          subst this
          exact .inl ⟨o'', h4, h2, h3⟩
        · have hno : ∀ o'' ∈ os, j ≠ i + o'' + 1 := fun o'' h4 h5 => h ⟨o'', h4, h5⟩
          rcases List.mem_cons.mp h1 with rfl | h1
          · exact .inr ⟨hno, assign_get.mpr (.inl ⟨h2, h3⟩)⟩
          · exact absurd h2 (hno o' h1)
      · exact .inr ⟨fun o' ho' => h1 o' (List.mem_cons_of_mem _ ho'),
          assign_get.mpr (.inr ⟨h1 o (List.mem_cons_self ..), h2⟩)⟩

theorem assignAll_get {u : Used} {flags : List Nat} {p : Holder} {i j : Nat} {v : Nat × Nat} :
    (u.assignAll flags p i)[j]? = some (some v) ↔
      (∃ e ∈ p.groups, j = i + indexOffset flags e.1 + 1 ∧ v = (p.number, indexOffset flags e.1)) ∨
      (j = i ∧ v = (p.number, noSymbol)) ∨
      ((∀ e ∈ p.groups, j ≠ i + indexOffset flags e.1 + 1) ∧ j ≠ i ∧ u[j]? = some (some v)) := by
  have h : u.assignAll flags p i = (p.groups.map fun e => indexOffset flags e.1).foldl (fun u o => u.assign (i + o + 1) p.number o)
      (u.assign i p.number noSymbol) := by
    unfold Used.assignAll
    rw [List.foldl_map]
  rw [h, assign_fold, assign_get]
  constructor
  · rintro (⟨o, h1, h2, h3⟩ | ⟨h1, ⟨h2, h3⟩ | ⟨h2, h3⟩⟩)
    · obtain ⟨e, he, rfl⟩ := List.mem_map.mp h1
      exact .inl ⟨e, he, h2, h3⟩
    · exact .inr (.inl ⟨h2, h3⟩)
    · exact .inr (.inr ⟨fun e he => h1 _ (List.mem_map.mpr ⟨e, he, rfl⟩), h2, h3⟩)
  · rintro (⟨e, he, h2, h3⟩ | ⟨h1, h2⟩ | ⟨h1, h2, h3⟩)
    · exact .inl ⟨_, List.mem_map.mpr ⟨e, he, rfl⟩, h2, h3⟩
    · refine .inr ⟨?_, .inl ⟨h1, h2⟩⟩
      intro o _
      omega
    · refine .inr ⟨?_, .inr ⟨h2, h3⟩⟩
      intro o ho
      obtain ⟨e, he, rfl⟩ := List.mem_map.mp ho
      exact h1 e he

theorem fits_beyond {u : Used} {flags : List Nat} {p : Holder} {i : Nat} (h : u.length ≤ i) : u.fits flags p i = true := by
  unfold Used.fits
  rw [used_beyond h]
  simp only [Bool.not_false, Bool.true_and, List.all_eq_true]
  intro e _
  rw [used_beyond (by omega)]
  rfl

theorem findFit_ok {u : Used} {flags : List Nat} {p : Holder} : ∀ (n i : Nat), 0 < n → u.length < i + n →
    ∃ j, u.findFit flags p n i = .ok j ∧ u.fits flags p j = true ∧ (u.fits flags p i = true → j = i)
  | 0, i, h, _ => absurd h (Nat.lt_irrefl 0)
  | n + 1, i, _, h => by
    rw [Used.findFit]
    by_cases hf : u.fits flags p i = true
    · rw [if_pos hf]
      exact ⟨i, rfl, hf, fun _ => rfl⟩
    · rw [if_neg hf]
      have hi : i < u.length := by
        by_cases hi : i < u.length
        · exact hi
        · exact absurd (fits_beyond (Nat.le_of_not_lt hi)) hf
      obtain ⟨j, h1, h3, h4⟩ := findFit_ok (u := u) (flags := flags) (p := p) n (i + 1) (by omega) (by omega)
      exact ⟨j, h1, h3, fun h => absurd h hf⟩

theorem unsuitable_beyond {tooFull : Nat → Nat → Bool} (htoo : ∀ n, 0 < n → tooFull 0 n = false) {u : Used} {i n : Nat}
    (h : u.length ≤ i) : u.unsuitable tooFull i n = false := by
  unfold Used.unsuitable
  rw [used_beyond h, Bool.false_or, List.any_eq_false]
  intro k hk
  have hn : 0 < n := Nat.lt_of_le_of_lt (Nat.zero_le k) (List.mem_range.mp hk)
  have : (List.range (k + 1)).filter (fun j => u.used (i + j + 1)) = [] := by
    rw [List.filter_eq_nil_iff]
    intro j _
    rw [used_beyond (by omega)]
    decide
  rw [this, List.length_nil, htoo n hn]
  decide

theorem skip_ok {tooFull : Nat → Nat → Bool} (htoo : ∀ n, 0 < n → tooFull 0 n = false) {u : Used} {seen : Nat} : ∀ (n i : Nat),
    0 < n → u.length < i + n → ∃ j, u.skip tooFull seen n i = .ok j
  | 0, i, h, _ => absurd h (Nat.lt_irrefl 0)
  | n + 1, i, _, h => by
    rw [Used.skip]
    by_cases hf : u.unsuitable tooFull i seen = true
    · rw [if_pos hf]
      have hi : i < u.length := by
        by_cases hi : i < u.length
        · exact hi
        · rw [unsuitable_beyond htoo (Nat.le_of_not_lt hi)] at hf
          cases hf
      exact skip_ok htoo n (i + 1) (by omega) (by omega)
    · rw [if_neg hf]
      exact ⟨i, rfl⟩

/-- The places in `u` belong to the states `ps`. -/
structure Packed (flags : List Nat) (u : Used) (ps : List Holder) : Prop where
  start : ∀ p ∈ ps, p.simple = false → u[p.start]? = some (some (p.number, noSymbol))
  symbol : ∀ p ∈ ps, p.simple = false → ∀ e ∈ p.groups,
    u[p.start + indexOffset flags e.1 + 1]? = some (some (p.number, indexOffset flags e.1))
  owner : ∀ j q s, u[j]? = some (some (q, s)) → ∃ p ∈ ps, p.number = q ∧ p.simple = false ∧
    ((s = noSymbol ∧ j = p.start) ∨ (j = p.start + s + 1 ∧ ∃ e ∈ p.groups, indexOffset flags e.1 = s))

/-- The state is the same but for its place in the index table. -/
def SameState (p p' : Holder) : Prop := ∃ i, p' = { p with start := i }

theorem SameState.simple {p p' : Holder} (h : SameState p p') : p'.simple = p.simple := by
  obtain ⟨i, rfl⟩ := h
  rfl

theorem place_ok {tooFull : Nat → Nat → Bool} (htoo : ∀ n, 0 < n → tooFull 0 n = false) {flags : List Nat} {seen : Nat} {P : Packing}
    {ps : List Holder} {p : Holder} (hP : Packed flags P.used ps) : ∃ P' p', P.place tooFull flags seen p = .ok (P', p') ∧ SameState p p' ∧
      Packed flags P'.used (ps ++ [p']) ∧ (P.used = [] → P.available = 0 → p.simple = false → p'.start = 0) := by
  unfold Packing.place
  by_cases hs : p.simple = true
  · rw [if_pos hs]
    refine ⟨P, p, rfl, ⟨p.start, rfl⟩, ⟨?_, ?_, ?_⟩, fun _ _ h => by rw [hs] at h; cases h⟩
    · intro r hr hr'
      rcases List.mem_append.mp hr with hr | hr
      · exact hP.start r hr hr'
      · rw [List.mem_singleton.mp hr, hs] at hr'
        cases hr'
    · intro r hr hr'
      rcases List.mem_append.mp hr with hr | hr
      · exact hP.symbol r hr hr'
      · rw [List.mem_singleton.mp hr, hs] at hr'
        cases hr'
    · intro j q s h
      obtain ⟨r, hr, h'⟩ := hP.owner j q s h
      exact ⟨r, List.mem_append_left _ hr, h'⟩
  · rw [if_neg hs]
    obtain ⟨i, h1, h2, h3⟩ := findFit_ok (u := P.used) (flags := flags) (p := p) (P.used.length + 1) P.available (by omega) (by omega)
    obtain ⟨f, h4⟩ := skip_ok htoo (u := P.used.assignAll flags p i) (seen := seen) ((P.used.assignAll flags p i).length + 1)
      P.available (by omega) (by omega)
    rw [h1, Outcome.bind]
    dsimp only
    rw [h4, Outcome.bind]
    have hfree : ∀ v, P.used[i]? ≠ some (some v) := by
      intro v hv
      unfold Used.fits at h2
      rw [Bool.and_eq_true] at h2
      have := used_iff.mpr ⟨v, hv⟩
      rw [this] at h2
      exact absurd h2.1 (by decide)
    have hfree' : ∀ e ∈ p.groups, ∀ v, P.used[i + indexOffset flags e.1 + 1]? ≠ some (some v) := by
      intro e he v hv
      unfold Used.fits at h2
      rw [Bool.and_eq_true, List.all_eq_true] at h2
      have h2 := h2.2 e he
      rw [Nat.add_comm i] at hv
      have := used_iff.mpr ⟨v, hv⟩
      rw [this] at h2
      exact absurd h2 (by decide)
    have hu : ∀ (b c : Packing), b.used = P.used.assignAll flags p i → c.used = P.used.assignAll flags p i → ∀ (a : Prop) [Decidable a],
        (if a then b else c).used = P.used.assignAll flags p i := by
      intro b c hb hc a _
      split
      · exact hb
      · exact hc
    have hkeep : ∀ {j : Nat} {v : Nat × Nat}, P.used[j]? = some (some v) → (P.used.assignAll flags p i)[j]? = some (some v) := by
      intro j v h
      refine assignAll_get.mpr (.inr (.inr ⟨?_, ?_, h⟩))
      · rintro e he rfl
        exact hfree' e he v h
      · rintro rfl
        exact hfree v h
    refine ⟨_, _, rfl, ⟨i, rfl⟩, ?_, ?_⟩
    · rw [hu _ _ (hu _ _ rfl rfl _) rfl]
      refine ⟨?_, ?_, ?_⟩
      · intro r hr hr'
        rcases List.mem_append.mp hr with hr | hr
        · exact hkeep (hP.start r hr hr')
        · rw [List.mem_singleton.mp hr]
          exact assignAll_get.mpr (.inr (.inl ⟨rfl, rfl⟩))
      · intro r hr hr' e he
        rcases List.mem_append.mp hr with hr | hr
        · exact hkeep (hP.symbol r hr hr' e he)
        · rw [List.mem_singleton.mp hr] at he ⊢
          exact assignAll_get.mpr (.inl ⟨e, he, rfl, rfl⟩)
      · intro j q s h
        rcases assignAll_get.mp h with ⟨e, he, h5, h6⟩ | ⟨h5, h6⟩ | ⟨_, _, h5⟩
        · injection h6 with h6 h7
          refine ⟨_, List.mem_append_right _ (List.mem_singleton.mpr rfl), h6.symm, Bool.eq_false_iff.mpr hs, .inr ⟨?_, e, he, h7.symm⟩⟩
          rw [h7]
          exact h5
        · injection h6 with h6 h7
          exact ⟨_, List.mem_append_right _ (List.mem_singleton.mpr rfl), h6.symm, Bool.eq_false_iff.mpr hs, .inl ⟨h7, h5⟩⟩
        · obtain ⟨r, hr, h'⟩ := hP.owner j q s h5
          exact ⟨r, List.mem_append_left _ hr, h'⟩
    · intro h5 h6 _
      show i = 0
      rw [h3, h6]
      exact fits_beyond (by rw [h5]; exact Nat.zero_le _)

theorem placeAll_ok {tooFull : Nat → Nat → Bool} (htoo : ∀ n, 0 < n → tooFull 0 n = false) {flags : List Nat} {seen : Nat} :
    ∀ (hs ps : List Holder) (P : Packing), Packed flags P.used ps → ∃ P' hs',
      Packing.placeAll tooFull flags seen P hs = .ok (P', hs') ∧ List.Forall₂ SameState hs hs' ∧ Packed flags P'.used (ps ++ hs') ∧
      (P.used = [] → P.available = 0 → ∀ p p', hs[0]? = some p → hs'[0]? = some p' → p.simple = false → p'.start = 0)
  | [], ps, P, hP => ⟨P, [], rfl, .nil, by simpa using hP, fun _ _ p p' h => by cases h⟩
  | p :: hs, ps, P, hP => by
    obtain ⟨P1, p1, h1, h2, h3, h4⟩ := place_ok htoo (seen := seen) (p := p) hP
    obtain ⟨P2, hs2, g1, g2, g3, _⟩ := placeAll_ok htoo (seen := seen) hs (ps ++ [p1]) P1 h3
    refine ⟨P2, p1 :: hs2, ?_, .cons h2 g2, ?_, ?_⟩
    · rw [Packing.placeAll, h1, Outcome.bind]
      dsimp only
      rw [g1, Outcome.bind]
    · rw [List.append_assoc] at g3
      exact g3
    · intro h5 h6 r r' hr hr' hsimple
      injection hr with hr
      injection hr' with hr'
      subst hr
      subst hr'
      exact h4 h5 h6 hsimple

/-! ## The transition table -/

theorem collect_map {α β : Type} {f : α → Outcome β} {g : α → β} : ∀ {l : List α}, (∀ x ∈ l, f x = .ok (g x)) →
    collectOutcomes f l = .ok (l.map g)
  | [], _ => rfl
  | x :: l, h => by
    rw [collectOutcomes, h x (List.mem_cons_self ..), Outcome.bind, collect_map fun y hy => h y (List.mem_cons_of_mem _ hy), Outcome.bind]
    rfl

theorem collect_get {α β : Type} {f : α → Outcome β} : ∀ {l : List α}, (∀ x ∈ l, ∃ y, f x = .ok y) →
    ∃ ys, collectOutcomes f l = .ok ys ∧ ys.length = l.length ∧ ∀ (i : Nat) (x : α), l[i]? = some x → ∃ y, ys[i]? = some y ∧ f x = .ok y
  | [], _ => ⟨[], rfl, rfl, fun i x h => by cases h⟩
  | x :: l, h => by
    obtain ⟨y, hy⟩ := h x (List.mem_cons_self ..)
    obtain ⟨ys, h1, h2, h3⟩ := collect_get (f := f) (l := l) fun y hy => h y (List.mem_cons_of_mem _ hy)
    refine ⟨y :: ys, ?_, by simp [h2], ?_⟩
    · rw [collectOutcomes, hy, Outcome.bind, h1, Outcome.bind]
    · intro i z hz
      cases i with
      | zero =>
        injection hz with hz
        subst hz
        exact ⟨y, rfl, hy⟩
      | succ i => exact h3 i z hz

theorem width_le {m : List (Nat × List TransHolder)} : ∀ {n : Nat}, n ≤ m.foldl (fun n e => max n (e.1 + 1)) n ∧
    ∀ e ∈ m, e.1 + 1 ≤ m.foldl (fun n e => max n (e.1 + 1)) n := by
  induction m with
  | nil => intro n; exact ⟨Nat.le_refl _, fun e he => by cases he⟩
  | cons e m ih =>
    intro n
    rw [List.foldl_cons]
    obtain ⟨h1, h2⟩ := ih (n := max n (e.1 + 1))
    refine ⟨Nat.le_trans (Nat.le_max_left _ _) h1, ?_⟩
    intro d hd
    rcases List.mem_cons.mp hd with rfl | hd
    · exact Nat.le_trans (Nat.le_max_right _ _) h1
    · exact h2 d hd

theorem present_width {p : Holder} {x : Nat} (h : p.present x = true) : x < p.width := by
  obtain ⟨e, he, rfl⟩ := present_iff.mp h
  exact (width_le (n := 0)).2 e he

/-- The symbols that are looked up as epsilon. -/
def Holder.freeSymbols (flags : List Nat) (p : Holder) : List Nat := (if p.present 0 then [0] else []) ++ flags.filter p.present

/-- The other symbols. -/
def Holder.otherSymbols (flags : List Nat) (p : Holder) : List Nat :=
  (List.range' 1 (p.width - 1)).filter fun i => p.present i && !decide (i ∈ flags)

theorem mem_free {flags : List Nat} {p : Holder} {x : Nat} : x ∈ p.freeSymbols flags ↔ p.present x = true ∧ (x = 0 ∨ x ∈ flags) := by
  unfold Holder.freeSymbols
  rw [List.mem_append, List.mem_filter]
  constructor
  · rintro (h | ⟨h1, h2⟩)
    · split at h
      · rename_i h0
        rw [List.mem_singleton.mp h]
        exact ⟨h0, .inl rfl⟩
      · cases h
    · exact ⟨h2, .inr h1⟩
  · rintro ⟨h1, rfl | h2⟩
    · left
      rw [if_pos h1]
      exact List.mem_singleton.mpr rfl
    · exact .inr ⟨h2, h1⟩

theorem mem_other {flags : List Nat} {p : Holder} {x : Nat} : x ∈ p.otherSymbols flags ↔ p.present x = true ∧ x ≠ 0 ∧ x ∉ flags := by
  unfold Holder.otherSymbols
  rw [List.mem_filter, List.mem_range'_1]
  simp only [Bool.and_eq_true, Bool.not_eq_true', decide_eq_false_iff_not]
  constructor
  · rintro ⟨h1, h2, h3⟩
    exact ⟨h2, by omega, h3⟩
  · rintro ⟨h1, h2, h3⟩
    have := present_width h1
    exact ⟨by omega, h1, h3⟩

theorem symbols_eq (flags : List Nat) (p : Holder) : p.symbols flags = p.freeSymbols flags ++ p.otherSymbols flags := rfl

theorem mem_symbols {flags : List Nat} {p : Holder} {x : Nat} : x ∈ p.symbols flags ↔ p.present x = true := by
  rw [symbols_eq, List.mem_append, mem_free, mem_other]
  constructor
  · rintro (h | h) <;> exact h.1
  · intro h
    by_cases h0 : x = 0
    · exact .inl ⟨h, .inl h0⟩
    · by_cases h1 : x ∈ flags
      · exact .inl ⟨h, .inr h1⟩
      · exact .inr ⟨h, h0, h1⟩

theorem symbols_nodup {flags : List Nat} (h0 : 0 ∉ flags) (hn : flags.Nodup) (p : Holder) : (p.symbols flags).Nodup := by
  rw [symbols_eq, List.nodup_append]
  refine ⟨?_, List.Nodup.filter _ List.nodup_range', ?_⟩
  · unfold Holder.freeSymbols
    rw [List.nodup_append]
    refine ⟨by split <;> simp, hn.filter _, ?_⟩
    intro a ha b hb
    rw [List.mem_filter] at hb
    split at ha
    · rw [List.mem_singleton.mp ha]
      rintro rfl
      exact h0 hb.1
    · cases ha
  · intro a ha b hb hab
    rw [mem_free] at ha
    rw [mem_other] at hb
    subst hab
    exact ha.2.elim hb.2.1 hb.2.2

/-- The transitions of a state in the order in which they are written. -/
def Holder.written (flags : List Nat) (p : Holder) : List TransHolder := (p.symbols flags).flatMap p.group

theorem group_input {flags : List Nat} {l : List TransHolder} {p : Holder} (h : HolderOK flags l p) {x : Nat} {t : TransHolder} :
    t ∈ p.group x ↔ t ∈ l ∧ t.input = x := by
  rw [h.group, List.mem_filter, decide_eq_true_iff]

theorem mem_written {flags : List Nat} {l : List TransHolder} {p : Holder} (h : HolderOK flags l p) {t : TransHolder} :
    t ∈ p.written flags ↔ t ∈ l := by
  unfold Holder.written
  rw [List.mem_flatMap]
  constructor
  · rintro ⟨x, _, hx⟩
    exact ((group_input h).mp hx).1
  · intro ht
    exact ⟨t.input, mem_symbols.mpr ((h.present _).mpr ⟨t, ht, rfl⟩), (group_input h).mpr ⟨ht, rfl⟩⟩

theorem filter_lengths : ∀ (l : List TransHolder) (syms : List Nat), syms.Nodup → (∀ t ∈ l, t.input ∈ syms) →
    (syms.map fun x => (l.filter fun t => t.input = x).length).sum = l.length
  | [], syms, _, _ => by
    induction syms with
    | nil => rfl
    | cons x syms ih => simp_all
  | t :: l, syms, hn, h => by
    have ih := filter_lengths l syms hn fun u hu => h u (List.mem_cons_of_mem _ hu)
    have key : ∀ syms : List Nat, (syms.map fun x => ((t :: l).filter fun t => t.input = x).length).sum =
        (syms.map fun x => (l.filter fun t => t.input = x).length).sum + syms.count t.input := by
      intro syms
      induction syms with
      | nil => rfl
      | cons x syms ih =>
        rw [List.map_cons, List.sum_cons, ih, List.map_cons, List.sum_cons, List.count_cons, List.filter_cons]
        by_cases hx : t.input = x
        · have hx' : (x == t.input) = true := by simpa using hx.symm
          rw [if_pos hx', if_pos (by simpa using hx), List.length_cons]
          omega
        · have hx' : ¬ (x == t.input) = true := by simpa using fun h => hx h.symm
          rw [if_neg hx', if_neg (by simpa using hx)]
          omega
    rw [key, ih, List.count_eq_one_of_mem hn (h t (List.mem_cons_self ..)), List.length_cons]

theorem written_length {flags : List Nat} (h0 : 0 ∉ flags) (hn : flags.Nodup) {l : List TransHolder} {p : Holder} (h : HolderOK flags l p) :
    (p.written flags).length = l.length := by
  unfold Holder.written
  rw [List.length_flatMap, ← filter_lengths l (p.symbols flags) (symbols_nodup h0 hn p)
    fun t ht => mem_symbols.mpr ((h.present _).mpr ⟨t, ht, rfl⟩)]
  simp only [h.group]

/-- The entry of a transition. -/
def entryOf (enc : Int → Nat) (ps : List Holder) (t : TransHolder) : Trans :=
  ⟨t.input, t.output, ((ps[t.target]?).map Holder.place).getD 0, enc t.weight⟩

/-- The entry before the transitions of a state. -/
def markerOf (enc : Int → Nat) (p : Holder) : Trans := ⟨noSymbol, noSymbol, if p.final then 1 else noIndex, enc p.finalWeight⟩

/-- All entries of a state. -/
def entriesOf (enc : Int → Nat) (flags : List Nat) (ps : List Holder) (p : Holder) : List Trans :=
  (if p.number = 0 then [] else [markerOf enc p]) ++ (p.written flags).map (entryOf enc ps)

/-- The last entry of the table. -/
def padding : Trans := ⟨noSymbol, noSymbol, noIndex, 1333788672⟩

theorem stateEntries_ok {enc : Int → Nat} {flags : List Nat} {ps : List Holder} {l : List TransHolder} {p : Holder}
    (h : HolderOK flags l p) (ht : ∀ t ∈ l, t.target < ps.length) : stateEntries enc flags ps p = .ok (entriesOf enc flags ps p) := by
  unfold stateEntries
  have h1 : ∀ x ∈ p.symbols flags, addTransitionsWith enc ps x (p.group x) = .ok ((p.group x).map (entryOf enc ps)) := by
    intro x _
    unfold addTransitionsWith
    apply collect_map
    intro t htx
    obtain ⟨h2, h3⟩ := (group_input h).mp htx
    rw [List.getElem?_eq_getElem (ht t h2)]
    unfold entryOf
    rw [List.getElem?_eq_getElem (ht t h2), h3]
    rfl
  rw [collect_map h1, Outcome.bind]
  unfold entriesOf Holder.written
  rw [List.map_flatMap]
  rfl

theorem transTable_ok {enc : Int → Nat} {flags : List Nat} {ps : List Holder}
    (h : ∀ p ∈ ps, ∃ l, HolderOK flags l p ∧ ∀ t ∈ l, t.target < ps.length) :
    transTable enc flags ps = .ok ((ps.map (entriesOf enc flags ps)).flatten ++ [padding]) := by
  unfold transTable
  rw [collect_map (g := entriesOf enc flags ps), Outcome.bind]
  · rfl
  · intro p hp
    obtain ⟨l, h1, h2⟩ := h p hp
    exact stateEntries_ok h1 h2

/-- Where the entries of a state are. -/
theorem states_split {table : List Sym} {flags : List Nat} {finals : List (Nat × Int)} (h0 : 0 ∉ flags) (hn : flags.Nodup)
    {enc : Int → Nat} {all : List Holder} {q first : Nat} {ls : List (List Arc)} {ps : List Holder}
    (h : States table flags finals q first ls ps) : ∀ (pre : List Trans), pre.length + (if q = 0 then 0 else 1) = first →
    ∀ (k : Nat) (p : Holder), ps[k]? = some p → ∃ pre' post t l, pre ++ (ps.map (entriesOf enc flags all)).flatten ++ [padding] =
      pre' ++ entriesOf enc flags all p ++ t :: post ∧ pre'.length + (if p.number = 0 then 0 else 1) = p.first ∧ t.input = noSymbol ∧
      ls[k]? = some l ∧ StateOK table flags finals (q + k) p.first l p := by
  induction h with
  | nil => intro pre _ k p hp; cases hp
  | @cons q first l ls p ps hp hs ih =>
    intro pre hpre k r hr
    cases k with
    | zero =>
      injection hr with hr
      subst hr
      have hst : StateOK table flags finals (q + 0) p.first l p := ⟨hp.ok, hp.number, rfl, hp.final, hp.weight⟩
      cases hs with
      | nil =>
        refine ⟨pre, [], padding, l, by simp, ?_, rfl, rfl, hst⟩
        rw [hp.number, hp.first]
        exact hpre
      | @cons _ _ l' ls' p' ps' hp' hs' =>
        refine ⟨pre, (p'.written flags).map (entryOf enc all) ++ (ps'.map (entriesOf enc flags all)).flatten ++ [padding],
          markerOf enc p', l, ?_, ?_, rfl, rfl, hst⟩
        · have hnum : p'.number ≠ 0 := by rw [hp'.number]; omega
          have : entriesOf enc flags all p' = markerOf enc p' :: (p'.written flags).map (entryOf enc all) := by
            unfold entriesOf
            rw [if_neg hnum]
            rfl
          rw [List.map_cons, List.flatten_cons, List.map_cons, List.flatten_cons, this]
          simp
        · rw [hp.number, hp.first]
          exact hpre
    | succ k =>
      have hlen : (pre ++ entriesOf enc flags all p).length + (if q + 1 = 0 then 0 else 1) = first + 1 + l.length := by
        unfold entriesOf
        rw [List.length_append, List.length_append, List.length_map, written_length h0 hn hp.ok, List.length_map, hp.number,
          if_neg (Nat.succ_ne_zero q)]
        by_cases hq : q = 0
        · rw [if_pos hq] at hpre ⊢
          rw [List.length_nil]
          omega
        · rw [if_neg hq] at hpre ⊢
          rw [List.length_singleton]
          omega
      obtain ⟨pre', post, t, l', h1, h2, h3, h4, h5⟩ := ih (pre ++ entriesOf enc flags all p) hlen k r hr
      refine ⟨pre', post, t, l', ?_, h2, h3, h4, ?_⟩
      · rw [← h1, List.map_cons, List.flatten_cons]
        simp
      · have : q + (k + 1) = q + 1 + k := by omega
        rw [this]
        exact h5

/-! ## The index table -/

theorem offsetFlags_ok {p : Holder} {s : Nat} : ∀ (fs : List Nat) (off : Nat), s ∉ fs →
    p.offsetFlags s fs off = some (off + ((fs.filter p.present).flatMap p.group).length)
  | [], off, _ => rfl
  | f :: fs, off, h => by
    have hs : s ≠ f := fun h' => h (by rw [h']; exact List.mem_cons_self ..)
    have hfs : s ∉ fs := fun h' => h (List.mem_cons_of_mem _ h')
    rw [Holder.offsetFlags, List.filter_cons]
    by_cases hp : p.present f = true
    · rw [if_pos hp, if_neg hs, if_pos hp, offsetFlags_ok fs _ hfs, List.flatMap_cons, List.length_append, Nat.add_assoc]
    · rw [if_neg hp, if_neg hp, offsetFlags_ok fs _ hfs]

theorem offsetOthers_ok {p : Holder} {flags : List Nat} {s : Nat} (hs : p.present s = true) (hs' : s ∉ flags) : ∀ (is : List Nat)
    (off : Nat), s ∈ is → ∃ s1 s2, is.filter (fun i => p.present i && !decide (i ∈ flags)) = s1 ++ s :: s2 ∧
      p.offsetOthers flags s is off = some (off + (s1.flatMap p.group).length)
  | [], off, h => by cases h
  | i :: is, off, h => by
    rw [Holder.offsetOthers, List.filter_cons]
    by_cases hi : p.present i = true
    · rw [if_pos hi]
      by_cases hf : i ∈ flags
      · have hne : s ≠ i := fun h' => hs' (by rw [h']; exact hf)
        rw [if_pos hf, if_neg (by simp [hf])]
        exact offsetOthers_ok hs hs' is off ((List.mem_cons.mp h).resolve_left hne)
      · rw [if_neg hf, if_pos (by simp [hi, hf])]
        by_cases hne : s = i
        · rw [if_pos hne, hne]
          exact ⟨[], _, rfl, rfl⟩
        · rw [if_neg hne]
          obtain ⟨s1, s2, h1, h2⟩ := offsetOthers_ok hs hs' is (off + (p.group i).length) ((List.mem_cons.mp h).resolve_left hne)
          refine ⟨i :: s1, s2, by rw [h1]; rfl, ?_⟩
          rw [h2, List.flatMap_cons, List.length_append, Nat.add_assoc]
    · have hne : s ≠ i := fun h' => hi (by rw [← h']; exact hs)
      rw [if_neg hi, if_neg (by simp [hi])]
      exact offsetOthers_ok hs hs' is off ((List.mem_cons.mp h).resolve_left hne)

theorem symbolOffset_ok {p : Holder} {flags : List Nat} {s : Nat} (hs : p.present s = true) (h0 : s ≠ 0) (hs' : s ∉ flags) :
    ∃ s1 s2, p.symbols flags = s1 ++ s :: s2 ∧ p.symbolOffset flags s = .ok (s1.flatMap p.group).length := by
  have hw := present_width hs
  have hrange : s ∈ List.range' 1 (p.width - 1) := by
    rw [List.mem_range'_1]
    omega
  unfold Holder.symbolOffset
  rw [if_neg h0, offsetFlags_ok flags _ hs']
  dsimp only
  obtain ⟨s1, s2, h1, h2⟩ := offsetOthers_ok hs hs' (List.range' 1 (p.width - 1))
    ((if p.present 0 = true then (p.group 0).length else 0) + ((flags.filter p.present).flatMap p.group).length) hrange
  refine ⟨p.freeSymbols flags ++ s1, s2, ?_, ?_⟩
  · rw [symbols_eq, List.append_assoc, ← h1]
    rfl
  · rw [h2]
    dsimp only
    rw [List.flatMap_append, List.length_append]
    unfold Holder.freeSymbols
    rw [List.flatMap_append, List.length_append]
    by_cases hp : p.present 0 = true
    · rw [if_pos hp, if_pos hp]
      simp
    · rw [if_neg hp, if_neg hp]
      simp

end Hfst.Ol
