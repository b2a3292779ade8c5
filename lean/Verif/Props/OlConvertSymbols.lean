import Verif.Props.OlConvertTables
import Verif.Props.OlFile
import Verif.Spec.OlLookup

/-!
# Optimized lookup: the numbers of the symbols

What holds for the symbol table that is made for a graph.
-/
namespace Hfst.Ol
open Hfst.Basic

theorem epsilon_plain : Flags.isDiacritic epsilonSym = false := by decide

theorem setInsert_nodup {s : List Sym} (h : s.Nodup) (x : Sym) : (setInsert s x).Nodup := by
  unfold setInsert
  split
  · exact h
  · rename_i hx
    exact List.nodup_cons.mpr ⟨hx, h⟩

/-- The sets of symbols are sets. -/
structure SymbolSets.Sets (S : SymbolSets) : Prop where
  inputs : S.inputs.Nodup
  flags : S.flags.Nodup
  others : S.others.Nodup

theorem addArcs_sets : ∀ (l : List Arc) (S : SymbolSets), S.Sets → (l.foldl SymbolSets.addArc S).Sets
  | [], _, h => h
  | a :: l, S, h => by
    rw [List.foldl_cons]
    apply addArcs_sets l
    unfold SymbolSets.addArc
    split
    · exact ⟨h.inputs, setInsert_nodup h.flags _, setInsert_nodup h.others _⟩
    · exact ⟨setInsert_nodup h.inputs _, h.flags, setInsert_nodup h.others _⟩

theorem addArcs_mem : ∀ (l : List Arc) (S : SymbolSets) (x : Sym),
    (x ∈ (l.foldl SymbolSets.addArc S).inputs ↔
      x ∈ S.inputs ∨ ∃ a ∈ l, a.inp = x ∧ (Flags.isDiacritic x || isInsertion x) = false) ∧
    (x ∈ (l.foldl SymbolSets.addArc S).flags ↔
      x ∈ S.flags ∨ ∃ a ∈ l, a.inp = x ∧ (Flags.isDiacritic x || isInsertion x) = true) ∧
    (x ∈ (l.foldl SymbolSets.addArc S).others ↔ x ∈ S.others ∨ ∃ a ∈ l, a.out = x)
  | [], S, x => by simp
  | a :: l, S, x => by
    obtain ⟨h1, h2, h3⟩ := addArcs_mem l (S.addArc a) x
    rw [List.foldl_cons, h1, h2, h3]
    unfold SymbolSets.addArc
    by_cases hd : (Flags.isDiacritic a.inp || isInsertion a.inp) = true
    · rw [if_pos hd]
      refine ⟨?_, ?_, ?_⟩
      · simp only [List.mem_cons, exists_eq_or_imp]
        constructor
        · rintro (h | h)
          · exact .inl h
          · exact .inr (.inr h)
        · rintro (h | ⟨rfl, h⟩ | h)
          · exact .inl h
          · rw [hd] at h; cases h
          · exact .inr h
      · simp only [List.mem_cons, exists_eq_or_imp, mem_setInsert]
        constructor
        · rintro ((rfl | h) | h)
          · exact .inr (.inl ⟨rfl, hd⟩)
          · exact .inl h
          · exact .inr (.inr h)
        · rintro (h | ⟨rfl, h⟩ | h)
          · exact .inl (.inr h)
          · exact .inl (.inl rfl)
          · exact .inr h
      · simp only [List.mem_cons, exists_eq_or_imp, mem_setInsert]
        constructor
        · rintro ((rfl | h) | h)
          · exact .inr (.inl rfl)
          · exact .inl h
          · exact .inr (.inr h)
        · rintro (h | rfl | h)
          · exact .inl (.inr h)
          · exact .inl (.inl rfl)
          · exact .inr h
    · rw [if_neg hd]
      have hd : (Flags.isDiacritic a.inp || isInsertion a.inp) = false := by simpa using hd
      refine ⟨?_, ?_, ?_⟩
      · simp only [List.mem_cons, exists_eq_or_imp, mem_setInsert]
        constructor
        · rintro ((rfl | h) | h)
          · exact .inr (.inl ⟨rfl, hd⟩)
          · exact .inl h
          · exact .inr (.inr h)
        · rintro (h | ⟨rfl, h⟩ | h)
          · exact .inl (.inr h)
          · exact .inl (.inl rfl)
          · exact .inr h
      · simp only [List.mem_cons, exists_eq_or_imp]
        constructor
        · rintro (h | h)
          · exact .inl h
          · exact .inr (.inr h)
        · rintro (h | ⟨rfl, h⟩ | h)
          · exact .inl h
          · rw [hd] at h; cases h
          · exact .inr h
      · simp only [List.mem_cons, exists_eq_or_imp, mem_setInsert]
        constructor
        · rintro ((rfl | h) | h)
          · exact .inr (.inl rfl)
          · exact .inl h
          · exact .inr (.inr h)
        · rintro (h | rfl | h)
          · exact .inl (.inr h)
          · exact .inl (.inl rfl)
          · exact .inr h

theorem addSymbols_mem : ∀ (l : List Sym) (S : SymbolSets),
    (l.foldl SymbolSets.addSymbol S).inputs = S.inputs ∧ (l.foldl SymbolSets.addSymbol S).flags = S.flags ∧
    (∀ x, x ∈ (l.foldl SymbolSets.addSymbol S).others ↔ x ∈ S.others ∨ (x ∈ l ∧ x ∉ S.inputs ∧ x ∉ S.flags)) ∧
    (S.Sets → (l.foldl SymbolSets.addSymbol S).Sets)
  | [], S => by simp
  | y :: l, S => by
    obtain ⟨h1, h2, h3, h4⟩ := addSymbols_mem l (S.addSymbol y)
    rw [List.foldl_cons]
    have e1 : (S.addSymbol y).inputs = S.inputs := by unfold SymbolSets.addSymbol; split <;> rfl
    have e2 : (S.addSymbol y).flags = S.flags := by unfold SymbolSets.addSymbol; split <;> rfl
    refine ⟨h1.trans e1, h2.trans e2, ?_, ?_⟩
    · intro x
      rw [h3, e1, e2]
      unfold SymbolSets.addSymbol
      split
      · rename_i hy
        rw [mem_setInsert, List.mem_cons]
        constructor
        · rintro ((rfl | h) | h)
          · exact .inr ⟨.inl rfl, hy⟩
          · exact .inl h
          · exact .inr ⟨.inr h.1, h.2⟩
        · rintro (h | ⟨rfl | h, h'⟩)
          · exact .inl (.inr h)
          · exact .inl (.inl rfl)
          · exact .inr ⟨h, h'⟩
      · rename_i hy
        rw [List.mem_cons]
        constructor
        · rintro (h | h)
          · exact .inl h
          · exact .inr ⟨.inr h.1, h.2⟩
        · rintro (h | ⟨rfl | h, h'⟩)
          · exact .inl h
          · exact absurd h' hy
          · exact .inr ⟨h, h'⟩
    · intro hS
      apply h4
      unfold SymbolSets.addSymbol
      split
      · exact ⟨hS.inputs, hS.flags, setInsert_nodup hS.others _⟩
      · exact hS

/-- What is in the sets of symbols of a graph. -/
theorem collect_mem (order : List Sym → List Sym) (ho : ∀ l, (order l).Perm l) (g : Graph) : (collect order g).Sets ∧
    (∀ x, x ∈ (collect order g).inputs ↔ ∃ a ∈ g.states.flatten, a.inp = x ∧ (Flags.isDiacritic x || isInsertion x) = false) ∧
    (∀ x, x ∈ (collect order g).flags ↔ ∃ a ∈ g.states.flatten, a.inp = x ∧ (Flags.isDiacritic x || isInsertion x) = true) ∧
    ∀ x, x ∈ (collect order g).others ↔ (∃ a ∈ g.states.flatten, a.out = x) ∨
      (x ∈ g.alphabet ∧ x ∉ (collect order g).inputs ∧ x ∉ (collect order g).flags) := by
  unfold collect
  obtain ⟨h1, h2, h3, h4⟩ := addSymbols_mem (order g.alphabet) (g.states.flatten.foldl SymbolSets.addArc ⟨[], [], []⟩)
  refine ⟨h4 (addArcs_sets _ _ ⟨List.nodup_nil, List.nodup_nil, List.nodup_nil⟩), ?_, ?_, ?_⟩
  · intro x
    rw [h1, (addArcs_mem _ _ x).1]
    simp
  · intro x
    rw [h2, (addArcs_mem _ _ x).2.1]
    simp
  · intro x
    rw [h3, (addArcs_mem _ _ x).2.2, h1, h2, (ho g.alphabet).mem_iff]
    simp

/-- What holds for the numbers of the symbols. -/
structure Numbered (g : Graph) (table : List Sym) (seen : Nat) (flags : List Nat) : Prop where
  nodup : table.Nodup
  zero : table[0]? = some epsilonSym
  bound : 1 ≤ seen ∧ seen ≤ table.length
  range : ∃ k, flags = List.range' seen k ∧ seen + k ≤ table.length
  plain : ∀ i x, i < seen → table[i]? = some x → Flags.isDiacritic x = false
  flag : ∀ i x, i ∈ flags → table[i]? = some x → Flags.isDiacritic x = true
  arc : ∀ a ∈ g.states.flatten, a.inp ∈ table ∧ a.out ∈ table ∧
    (Flags.isDiacritic a.inp = false → symbolNumber table a.inp < seen) ∧
    (Flags.isDiacritic a.inp = true → symbolNumber table a.inp ∈ flags)
  all : ∀ x ∈ g.alphabet, x ∈ table
  only : ∀ x ∈ table, x = epsilonSym ∨ x ∈ g.alphabet ∨ ∃ a ∈ g.states.flatten, a.inp = x ∨ a.out = x
  input : ∀ i x, 0 < i → i < seen → table[i]? = some x → ∃ a ∈ g.states.flatten, a.inp = x

theorem number_get {table : List Sym} {x : Sym} (h : x ∈ table) : table[symbolNumber table x]? = some x := by
  unfold symbolNumber
  rw [if_pos h, List.getElem?_eq_getElem (List.idxOf_lt_length_of_mem h), List.getElem_idxOf]

theorem number_lt {table : List Sym} {x : Sym} (h : x ∈ table) : symbolNumber table x < table.length :=
  (List.getElem?_eq_some_iff.mp (number_get h)).1

/-- A symbol that is not in the first part is numbered in the second one. -/
theorem number_append {l1 l2 : List Sym} {x : Sym} (h1 : x ∉ l1) (h2 : x ∈ l2) :
    symbolNumber (l1 ++ l2) x = l1.length + symbolNumber l2 x := by
  unfold symbolNumber
  rw [if_pos (List.mem_append_right _ h2), if_pos h2, List.idxOf_append_of_notMem h1, Nat.add_comm]

theorem number_prefix {l1 l2 : List Sym} {x : Sym} (h1 : x ∈ l1) : symbolNumber (l1 ++ l2) x = symbolNumber l1 x := by
  unfold symbolNumber
  rw [if_pos (List.mem_append_left _ h1), if_pos h1, List.idxOf_append_of_mem h1]

theorem table_numbered (order : List Sym → List Sym) (ho : ∀ l, (order l).Perm l) {g : Graph}
    (hins : ∀ a ∈ g.states.flatten, isInsertion a.inp = false) :
    Numbered g ((collect order g).table order) (1 + ((collect order g).inputPart order).length)
      (List.range' (1 + ((collect order g).inputPart order).length) ((collect order g).flagPart order).length) := by
  obtain ⟨hS, hI, hF, hO⟩ := collect_mem order ho g
  generalize collect order g = S at hS hI hF hO
  have mI : ∀ x, x ∈ S.inputPart order ↔ x ∈ S.inputs ∧ x ≠ epsilonSym := by
    intro x
    unfold SymbolSets.inputPart
    rw [List.mem_filter, (ho _).mem_iff, decide_eq_true_iff]
  have mF : ∀ x, x ∈ S.flagPart order ↔ x ∈ S.flags ∧ x ≠ epsilonSym := by
    intro x
    unfold SymbolSets.flagPart
    rw [List.mem_filter, (ho _).mem_iff, decide_eq_true_iff]
  have mO : ∀ x, x ∈ S.otherPart order ↔ x ∈ S.others ∧ x ≠ epsilonSym ∧ x ∉ S.inputs ∧ x ∉ S.flags := by
    intro x
    unfold SymbolSets.otherPart
    rw [List.mem_filter, (ho _).mem_iff, decide_eq_true_iff]
  have hIF : ∀ x, x ∈ S.inputs → x ∉ S.flags := by
    intro x h1 h2
    obtain ⟨_, _, _, h3⟩ := (hI x).mp h1
    obtain ⟨_, _, _, h4⟩ := (hF x).mp h2
    rw [h3] at h4
    cases h4
  have hplainI : ∀ x ∈ S.inputs, Flags.isDiacritic x = false := by
    intro x hx
    obtain ⟨_, _, _, h⟩ := (hI x).mp hx
    rw [Bool.or_eq_false_iff] at h
    exact h.1
  have hdiacF : ∀ x ∈ S.flags, Flags.isDiacritic x = true := by
    intro x hx
    obtain ⟨a, ha, hax, h⟩ := (hF x).mp hx
    rw [← hax, hins a ha, Bool.or_false] at h
    rw [← hax]
    exact h
  have hmem : ∀ x, x ∈ S.table order ↔ x = epsilonSym ∨ x ∈ S.inputs ∨ x ∈ S.flags ∨ x ∈ S.others := by
    intro x
    unfold SymbolSets.table
    rw [List.mem_cons, List.mem_append, List.mem_append, mI, mF, mO]
    constructor
    · rintro (h | (h | h) | h)
      · exact .inl h
      · exact .inr (.inl h.1)
      · exact .inr (.inr (.inl h.1))
      · exact .inr (.inr (.inr h.1))
    · intro h
      by_cases he : x = epsilonSym
      · exact .inl he
      · by_cases hi : x ∈ S.inputs
        · exact .inr (.inl (.inl ⟨hi, he⟩))
        · by_cases hf : x ∈ S.flags
          · exact .inr (.inl (.inr ⟨hf, he⟩))
          · rcases h with h | h | h | h
            · exact absurd h he
            · exact absurd h hi
            · exact absurd h hf
            · exact .inr (.inr ⟨h, he, hi, hf⟩)
  have hlen : (S.table order).length = 1 + (S.inputPart order).length + (S.flagPart order).length + (S.otherPart order).length := by
    unfold SymbolSets.table
    rw [List.length_cons, List.length_append, List.length_append]
    omega
  have hcons : S.table order = ([epsilonSym] ++ S.inputPart order) ++ (S.flagPart order ++ S.otherPart order) := by
    unfold SymbolSets.table
    simp
  have hfirst : ([epsilonSym] ++ S.inputPart order).length = 1 + (S.inputPart order).length := by
    rw [List.length_append, List.length_singleton]
  refine ⟨?_, rfl, ⟨by omega, by omega⟩, ⟨_, rfl, by omega⟩, ?_, ?_, ?_, ?_, ?_, ?_⟩
  · unfold SymbolSets.table
    rw [List.nodup_cons, List.nodup_append, List.nodup_append]
    refine ⟨?_, ⟨?_, ?_, ?_⟩, ?_, ?_⟩
    · rw [List.mem_append, List.mem_append, mI, mF, mO]
      rintro ((h | h) | h)
      · exact h.2 rfl
      · exact h.2 rfl
      · exact h.2.1 rfl
    · exact ((ho _).nodup_iff.mpr hS.inputs).filter _
    · exact ((ho _).nodup_iff.mpr hS.flags).filter _
    · rintro x hx y hy rfl
      exact hIF x ((mI x).mp hx).1 ((mF x).mp hy).1
    · exact ((ho _).nodup_iff.mpr hS.others).filter _
    · rintro x hx y hy rfl
      obtain ⟨_, _, h1, h2⟩ := (mO x).mp hy
      rcases List.mem_append.mp hx with hx | hx
      · exact h1 ((mI x).mp hx).1
      · exact h2 ((mF x).mp hx).1
  · intro i x hi hx
    rw [hcons, List.getElem?_append_left (by omega)] at hx
    rcases List.mem_append.mp (List.mem_of_getElem? hx) with h | h
    · rw [List.mem_singleton.mp h]
      exact epsilon_plain
    · exact hplainI x ((mI x).mp h).1
  · intro i x hi hx
    rw [List.mem_range'_1] at hi
    rw [hcons, List.getElem?_append_right (by omega), List.getElem?_append_left (by omega)] at hx
    exact hdiacF x ((mF x).mp (List.mem_of_getElem? hx)).1
  · intro a ha
    have hin : Flags.isDiacritic a.inp = false → a.inp ∈ S.inputs := by
      intro h
      exact (hI _).mpr ⟨a, ha, rfl, by rw [h, hins a ha]; rfl⟩
    have hfl : Flags.isDiacritic a.inp = true → a.inp ∈ S.flags := by
      intro h
      exact (hF _).mpr ⟨a, ha, rfl, by rw [h]; rfl⟩
    refine ⟨?_, (hmem _).mpr (.inr (.inr (.inr ((hO _).mpr (.inl ⟨a, ha, rfl⟩))))), ?_, ?_⟩
    · cases hd : Flags.isDiacritic a.inp with
      | false => exact (hmem _).mpr (.inr (.inl (hin hd)))
      | true => exact (hmem _).mpr (.inr (.inr (.inl (hfl hd))))
    · intro hd
      have : a.inp ∈ [epsilonSym] ++ S.inputPart order := by
        by_cases he : a.inp = epsilonSym
        · exact List.mem_append_left _ (List.mem_singleton.mpr he)
        · exact List.mem_append_right _ ((mI _).mpr ⟨hin hd, he⟩)
      rw [hcons, number_prefix this, ← hfirst]
      exact number_lt this
    · intro hd
      have he : a.inp ≠ epsilonSym := by
        intro he
        rw [he, epsilon_plain] at hd
        cases hd
      have h1 : a.inp ∉ [epsilonSym] ++ S.inputPart order := by
        intro h
        rcases List.mem_append.mp h with h | h
        · exact he (List.mem_singleton.mp h)
        · exact hIF _ ((mI _).mp h).1 (hfl hd)
      have h2 : a.inp ∈ S.flagPart order := (mF _).mpr ⟨hfl hd, he⟩
      rw [hcons, number_append h1 (List.mem_append_left _ h2), number_prefix h2, hfirst, List.mem_range'_1]
      have := number_lt h2
      omega
  · intro x hx
    apply (hmem x).mpr
    by_cases hi : x ∈ S.inputs
    · exact .inr (.inl hi)
    · by_cases hf : x ∈ S.flags
      · exact .inr (.inr (.inl hf))
      · exact .inr (.inr (.inr ((hO x).mpr (.inr ⟨hx, hi, hf⟩))))
  · intro x hx
    rcases (hmem x).mp hx with h | h | h | h
    · exact .inl h
    · obtain ⟨a, ha, h, _⟩ := (hI x).mp h
      exact .inr (.inr ⟨a, ha, .inl h⟩)
    · obtain ⟨a, ha, h, _⟩ := (hF x).mp h
      exact .inr (.inr ⟨a, ha, .inl h⟩)
    · rcases (hO x).mp h with ⟨a, ha, h⟩ | ⟨h, _⟩
      · exact .inr (.inr ⟨a, ha, .inr h⟩)
      · exact .inr (.inl h)
  · intro i x h0 hi hx
    rw [hcons, List.getElem?_append_left (by omega), List.getElem?_append_right (by rw [List.length_singleton]; omega)] at hx
    obtain ⟨a, ha, h, _⟩ := (hI x).mp ((mI x).mp (List.mem_of_getElem? hx)).1
    exact ⟨a, ha, h⟩

/-! ## Flags -/

/-- What holds for a table of flags. -/
structure FlagTableOK (t : Flags.FdTable Nat) : Prop where
  features : ∀ f n, t.featureMap.lookup f = some n → n < t.featureMap.length
  operations : ∀ x o, t.getOperation x = some o → o.feature < t.featureMap.length

theorem addFeature_ok {m m' : List (Str × Nat)} {f : Str} (h : Flags.addFeature m f = some m')
    (hm : ∀ f n, m.lookup f = some n → n < m.length) : m.length ≤ m'.length ∧ (∀ f n, m'.lookup f = some n → n < m'.length) ∧
      ∃ n, m'.lookup f = some n := by
  unfold Flags.addFeature at h
  split at h
  · rename_i hs
    injection h with h
    subst h
    exact ⟨Nat.le_refl _, hm, Option.isSome_iff_exists.mp hs⟩
  · unfold Flags.sizeToUShort at h
    split at h
    · injection h with h
      subst h
      refine ⟨by simp, ?_, m.length, ?_⟩
      · intro f' n hn
        rw [List.lookup_cons] at hn
        split at hn
        · injection hn with hn
          simp [← hn]
        · have := hm f' n hn
          simp
          omega
      · rw [List.lookup_cons]
        simp
    · cases h

theorem define_ok {t t' : Flags.FdTable Nat} {x : Nat} {s : Str} (h : t.define x s = some t') (ht : FlagTableOK t) :
    FlagTableOK t' ∧ ∀ y, (∃ o, t'.getOperation y = some o) ↔ y = x ∨ ∃ o, t.getOperation y = some o := by
  unfold Flags.FdTable.define at h
  split at h
  · split at h
    · cases h
    · rename_i op f v hs
      dsimp only at h
      split at h
      · rename_i fm vm h1 h2
        injection h with h
        subst h
        obtain ⟨g1, g2, n, g3⟩ := addFeature_ok h1 ht.features
        refine ⟨⟨g2, ?_⟩, ?_⟩
        · intro y o ho
          unfold Flags.FdTable.getOperation at ho
          rw [List.lookup_cons] at ho
          split at ho
          · injection ho with ho
            subst ho
            show (fm.lookup f).getD 0 < fm.length
            rw [g3]
            exact g2 f n g3
          · exact Nat.lt_of_lt_of_le (ht.operations y o ho) g1
        · intro y
          unfold Flags.FdTable.getOperation
          rw [List.lookup_cons]
          by_cases hy : y = x
          · subst hy
            simp
          · have : (y == x) = false := by simpa using hy
            rw [this]
            simp [hy]
      · cases h
  · cases h

theorem defineAll_ok : ∀ (defs : List (Nat × Str)) {t t' : Flags.FdTable Nat}, t.defineAll defs = some t' → FlagTableOK t →
    FlagTableOK t' ∧ ∀ y, (∃ o, t'.getOperation y = some o) ↔ (∃ s, (y, s) ∈ defs) ∨ ∃ o, t.getOperation y = some o
  | [], t, t', h, ht => by
    injection h with h
    subst h
    exact ⟨ht, fun y => by simp⟩
  | (x, s) :: defs, t, t', h, ht => by
    rw [Flags.FdTable.defineAll, Option.bind_eq_some_iff] at h
    obtain ⟨t1, h1, h2⟩ := h
    obtain ⟨g1, g2⟩ := define_ok h1 ht
    obtain ⟨f1, f2⟩ := defineAll_ok defs h2 g1
    refine ⟨f1, fun y => ?_⟩
    rw [f2, g2]
    constructor
    · rintro (⟨s', h⟩ | rfl | h)
      · exact .inl ⟨s', List.mem_cons_of_mem _ h⟩
      · exact .inl ⟨s, List.mem_cons_self ..⟩
      · exact .inr h
    · rintro (⟨s', h⟩ | h)
      · rcases List.mem_cons.mp h with h | h
        · injection h with h h'
          exact .inr (.inl h)
        · exact .inl ⟨s', h⟩
      · exact .inr (.inr h)

/-- The flags of a symbol table are its diacritics. -/
theorem flagTable_ok {table : List Sym} {fd : Flags.FdTable Nat} (h : flagTable table = some fd) :
    FlagTableOK fd ∧ ∀ x, (∃ o, fd.getOperation x = some o) ↔ ∃ s, table[x]? = some s ∧ Flags.isDiacritic s = true := by
  obtain ⟨h1, h2⟩ := defineAll_ok _ h ⟨(fun f n hf => by cases hf), (fun x o ho => by cases ho)⟩
  refine ⟨h1, fun x => ?_⟩
  rw [h2]
  have hno : ¬ ∃ o, (Flags.FdTable.empty : Flags.FdTable Nat).getOperation x = some o := fun ⟨o, ho⟩ => by cases ho
  simp only [hno, or_false, List.mem_filterMap]
  constructor
  · rintro ⟨s, ⟨y, i⟩, hy, hs⟩
    dsimp only at hs
    split at hs
    · rename_i hd
      injection hs with hs
      injection hs with hs1 hs2
      subst hs1 hs2
      exact ⟨y, List.mem_zipIdx_iff_getElem?.mp hy, hd⟩
    · cases hs
  · rintro ⟨s, hs, hd⟩
    exact ⟨s, (s, x), List.mem_zipIdx_iff_getElem?.mpr hs, by simp [hd]⟩

/-! ## Special symbols -/

/-- Where a special symbol is: its number is that of the last place of the symbol, or 65535. -/
def PlacedAt (xs : List Bytes) (i old : Nat) (s : Sym) (k : Nat) : Prop :=
  (∃ j x, xs[j]? = some x ∧ asText x = s ∧ k = i + j) ∨ (k = old ∧ ∀ x ∈ xs, asText x ≠ s)

/-- The default symbol (libhfst/src/HfstSymbolDefs.h:103, `internal_default`). -/
def defaultSym : Sym := "@_DEFAULT_SYMBOL_@".toList

theorem unknown_plain : Flags.isDiacritic Basic.unknown = false := by decide
theorem identity_plain : Flags.isDiacritic Basic.identity = false := by decide
theorem default_plain : Flags.isDiacritic defaultSym = false := by decide

theorem placed_cons {x : Bytes} {xs : List Bytes} {i old k : Nat} {s : Sym}
    (h : PlacedAt xs (i + 1) (if asText x = s then i else old) s k) : PlacedAt (x :: xs) i old s k := by
  rcases h with ⟨j, y, h1, h2, h3⟩ | ⟨h1, h2⟩
  · exact .inl ⟨j + 1, y, h1, h2, by omega⟩
  · by_cases hx : asText x = s
    · rw [if_pos hx] at h1
      exact .inl ⟨0, x, rfl, hx, by omega⟩
    · rw [if_neg hx] at h1
      refine .inr ⟨h1, ?_⟩
      intro y hy
      rcases List.mem_cons.mp hy with rfl | hy
      · exact hx
      · exact h2 y hy

theorem note_fields (al : Alphabet) (i : Nat) (x : Bytes) :
    (al.note i x).unknown = (if asText x = Basic.unknown then i else al.unknown) ∧
    (al.note i x).default = (if asText x = defaultSym then i else al.default) ∧
    (al.note i x).identity = if asText x = Basic.identity then i else al.identity := by
  have h1 : Basic.unknown ≠ defaultSym := by decide
  have h2 : Basic.unknown ≠ Basic.identity := by decide
  have h3 : defaultSym ≠ Basic.identity := by decide
  unfold Alphabet.note
  change (if Flags.isDiacritic (asText x) = true then al
      else if asText x = Basic.unknown then { al with unknown := i }
      else if asText x = defaultSym then { al with default := i }
      else if asText x = Basic.identity then { al with identity := i } else al).unknown = _ ∧
    (if Flags.isDiacritic (asText x) = true then al
      else if asText x = Basic.unknown then { al with unknown := i }
      else if asText x = defaultSym then { al with default := i }
      else if asText x = Basic.identity then { al with identity := i } else al).default = _ ∧
    (if Flags.isDiacritic (asText x) = true then al
      else if asText x = Basic.unknown then { al with unknown := i }
      else if asText x = defaultSym then { al with default := i }
      else if asText x = Basic.identity then { al with identity := i } else al).identity = _
  by_cases hd : Flags.isDiacritic (asText x) = true
  · have e1 : asText x ≠ Basic.unknown := fun h => by rw [h, unknown_plain] at hd; cases hd
    have e2 : asText x ≠ defaultSym := fun h => by rw [h, default_plain] at hd; cases hd
    have e3 : asText x ≠ Basic.identity := fun h => by rw [h, identity_plain] at hd; cases hd
    rw [if_pos hd, if_neg e1, if_neg e2, if_neg e3]
    exact ⟨rfl, rfl, rfl⟩
  · rw [if_neg hd]
    by_cases e1 : asText x = Basic.unknown
    · rw [if_pos e1, if_pos e1, e1, if_neg h1, if_neg h2]
      exact ⟨rfl, rfl, rfl⟩
    · rw [if_neg e1, if_neg e1]
      by_cases e2 : asText x = defaultSym
      · rw [if_pos e2, if_pos e2, e2, if_neg h3]
        exact ⟨rfl, rfl, rfl⟩
      · rw [if_neg e2, if_neg e2]
        by_cases e3 : asText x = Basic.identity
        · rw [if_pos e3, if_pos e3]
          exact ⟨rfl, rfl, rfl⟩
        · rw [if_neg e3, if_neg e3]
          exact ⟨rfl, rfl, rfl⟩

theorem noteAll_placed : ∀ (xs : List Bytes) (i : Nat) (al : Alphabet),
    PlacedAt xs i al.unknown Basic.unknown (Alphabet.noteAll xs i al).unknown ∧
    PlacedAt xs i al.default defaultSym (Alphabet.noteAll xs i al).default ∧
    PlacedAt xs i al.identity Basic.identity (Alphabet.noteAll xs i al).identity
  | [], i, al => ⟨.inr ⟨rfl, by simp⟩, .inr ⟨rfl, by simp⟩, .inr ⟨rfl, by simp⟩⟩
  | x :: xs, i, al => by
    obtain ⟨h1, h2, h3⟩ := noteAll_placed xs (i + 1) (al.note i x)
    obtain ⟨e1, e2, e3⟩ := note_fields al i x
    rw [e1] at h1
    rw [e2] at h2
    rw [e3] at h3
    rw [Alphabet.noteAll]
    exact ⟨placed_cons h1, placed_cons h2, placed_cons h3⟩

/-- The characters of a symbol stand for bytes. -/
def ByteSym (s : Sym) : Prop := ∀ c ∈ s, c.toNat < 256

theorem text_bytes {s : Sym} (h : ByteSym s) : asText (asBytes s) = s := by
  unfold asText asBytes
  rw [List.map_map]
  rw [List.map_congr_left (g := id), List.map_id]
  intro c hc
  have := h c hc
  show Char.ofNat (UInt8.ofNat c.toNat).toNat = c
  rw [UInt8.toNat_ofNat', Nat.mod_eq_of_lt this, Char.ofNat_toNat]

/-- The number of a special symbol is its number in the table, or 65535 if it is not there. -/
theorem special_number {table : List Sym} (hn : table.Nodup) (hb : ∀ x ∈ table, ByteSym x) {s : Sym} {k : Nat}
    (h : PlacedAt (table.map asBytes) 0 noSymbol s k) : k = if s ∈ table then table.idxOf s else noSymbol := by
  rcases h with ⟨j, x, h1, h2, h3⟩ | ⟨h1, h2⟩
  · rw [List.getElem?_map] at h1
    cases hj : table[j]? with
    | none => rw [hj] at h1; cases h1
    | some y =>
      rw [hj] at h1
      injection h1 with h1
      have hmem := List.mem_of_getElem? hj
      rw [← h1, text_bytes (hb y hmem)] at h2
      subst h2
      rw [if_pos hmem, h3, Nat.zero_add]
      obtain ⟨hlt, hget⟩ := List.getElem?_eq_some_iff.mp hj
      rw [← hget]
      exact (hn.idxOf_getElem j hlt).symm
  · rw [if_neg, h1]
    intro hs
    exact h2 (asBytes s) (List.mem_map.mpr ⟨s, hs, rfl⟩) (text_bytes (hb s hs))

end Hfst.Ol
