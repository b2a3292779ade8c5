import Verif.Model.Flags

/-!
# Properties C01, C04, C05 of flag diacritics: spelling and filtering
-/
namespace Hfst.Flags
open Hfst.StdString

/-! ## C01: spelling -/

/-- The documented spelling `@o.f@` or `@o.f.v@` of a flag diacritic. -/
def spell (o : Char) (f : Str) (v : Option Str) : Str :=
  ['@', o, '.'] ++ f ++ (match v with | none => [] | some w => '.' :: w) ++ ['@']

/-- The documented side conditions: a known operator, no full stop in the feature; the value may be
missing only for R, D and C, and then the feature may not be empty. -/
def WellFormed (o : Char) (f : Str) (v : Option Str) : Prop :=
  o ∈ ['P', 'N', 'D', 'R', 'C', 'U'] ∧ '.' ∉ f ∧ (v = none → f ≠ [] ∧ o ∈ ['R', 'D', 'C'])

theorem findIdx?_none_of_not_mem {l : List Char} {c : Char} (h : c ∉ l) :
    l.findIdx? (fun d => d == c) = none := by
  rw [List.findIdx?_eq_none_iff]
  intro x hx
  simp only [beq_eq_false_iff_ne]
  rintro rfl
  exact h hx

theorem findIdx?_append_cons {l r : List Char} {c : Char} (h : c ∉ l) :
    (l ++ c :: r).findIdx? (fun d => d == c) = some l.length := by
  induction l with
  | nil => simp [List.findIdx?_cons]
  | cons a l ih =>
    have ha : a ≠ c := by rintro rfl; simp at h
    have hl : c ∉ l := fun hc => h (List.mem_cons_of_mem _ hc)
    simp [List.findIdx?_cons, ha, ih hl]

theorem exists_split_of_mem {l : List Char} {c : Char} (h : c ∈ l) :
    ∃ a b, c ∉ a ∧ l = a ++ c :: b := by
  induction l with
  | nil => simp at h
  | cons x l ih =>
    by_cases hx : x = c
    · exact ⟨[], l, by simp, by simp [hx]⟩
    · have : c ∈ l := by
        rcases List.mem_cons.mp h with h' | h'
        · exact absurd h'.symm hx
        · exact h'
      obtain ⟨a, b, ha, hb⟩ := ih this
      refine ⟨x :: a, b, ?_, by simp [hb]⟩
      simp only [List.mem_cons, not_or]
      exact ⟨fun h => hx h.symm, ha⟩

theorem findLast_two {a b : Char} {t : List Char} :
    findLast (a :: b :: '.' :: t) '.' = some 2 ↔ '.' ∉ t := by
  unfold findLast
  constructor
  · intro h hm
    have hm' : '.' ∈ t.reverse := by simpa using hm
    obtain ⟨x, y, hx, hy⟩ := exists_split_of_mem hm'
    have e : (a :: b :: '.' :: t).reverse = x ++ '.' :: (y ++ ['.', b, a]) := by
      simp [hy]
    rw [e, findIdx?_append_cons hx] at h
    have hl : t.length = x.length + 1 + y.length := by
      have := congrArg List.length hy
      simp at this
      omega
    simp at h
    omega
  · intro h
    have h' : '.' ∉ t.reverse := by simpa using h
    have e : (a :: b :: '.' :: t).reverse = t.reverse ++ '.' :: [b, a] := by simp
    rw [e, findIdx?_append_cons h']
    simp

theorem charToOperator_isSome {o : Char} :
    (charToOperator o).isSome ↔ o ∈ ['P', 'N', 'D', 'R', 'C', 'U'] := by
  unfold charToOperator
  simp only [List.mem_cons, List.not_mem_nil, or_false]
  grind

theorem isDiacritic_shape {a b c z : Char} {u : List Char} (hu : u ≠ []) :
    isDiacritic (a :: b :: c :: (u ++ [z])) = true ↔
      c = '.' ∧ a = '@' ∧ z = '@' ∧ b ∈ ['P', 'N', 'D', 'R', 'C', 'U'] ∧
        ('.' ∈ u ∨ b ∈ ['R', 'D', 'C']) := by
  have hl : ¬ (a :: b :: c :: (u ++ [z])).length < 5 := by
    have : 0 < u.length := List.length_pos_iff.mpr hu
    simp; omega
  have h0 : charAt (a :: b :: c :: (u ++ [z])) 0 = some a := rfl
  have h1 : charAt (a :: b :: c :: (u ++ [z])) 1 = some b := rfl
  have h2 : charAt (a :: b :: c :: (u ++ [z])) 2 = some c := rfl
  have h3 : charAt (a :: b :: c :: (u ++ [z])) ((a :: b :: c :: (u ++ [z])).length - 1) = some z := by
    simp [charAt]
  unfold isDiacritic
  simp only [h0, h1, h2, h3, hl, if_false]
  by_cases hc : c = '.'
  · subst hc
    have hfl : findLast (a :: b :: '.' :: (u ++ [z])) '.' = some 2 ↔ '.' ∉ u ++ [z] := findLast_two
    have hop := @charToOperator_isSome b
    by_cases hz : z = '@'
    · subst hz
      have hm : '.' ∉ u ++ ['@'] ↔ '.' ∉ u := by simp
      rw [hm] at hfl
      simp only [hfl]
      rw [← hop]
      cases charToOperator b <;> simp <;> grind
    · simp [hz]
  · simp [hc]

/-- C01: exactly the documented spellings are recognised as flag diacritics. -/
theorem C01_isDiacritic_iff (s : Str) :
    isDiacritic s = true ↔ ∃ o f v, WellFormed o f v ∧ s = spell o f v := by
  constructor
  · intro h
    have hlen : ¬ s.length < 5 := by
      intro hl
      simp [isDiacritic, hl] at h
    match s, hlen, h with
    | a :: b :: c :: t, hlen, h =>
      have ht : t ≠ [] := by rintro rfl; simp at hlen
      obtain ⟨u, z, rfl⟩ : ∃ u z, t = u ++ [z] := ⟨t.dropLast, t.getLast ht, (List.dropLast_concat_getLast ht).symm⟩
      have hu : u ≠ [] := by rintro rfl; simp at hlen
      obtain ⟨rfl, rfl, rfl, hb, hor⟩ := (isDiacritic_shape hu).mp h
      by_cases hd : '.' ∈ u
      · obtain ⟨f, w, hf, rfl⟩ := exists_split_of_mem hd
        exact ⟨b, f, some w, ⟨hb, hf, by simp⟩, by simp [spell]⟩
      · refine ⟨b, u, none, ⟨hb, hd, fun _ => ⟨hu, ?_⟩⟩, by simp [spell]⟩
        exact hor.resolve_left hd
    | [], hlen, _ => simp at hlen
    | [_], hlen, _ => simp at hlen
    | [_, _], hlen, _ => simp at hlen
  · rintro ⟨o, f, v, ⟨ho, hf, hv⟩, rfl⟩
    cases v with
    | none =>
      obtain ⟨hne, hrdc⟩ := hv rfl
      have := (@isDiacritic_shape '@' o '.' '@' f hne).mpr ⟨rfl, rfl, rfl, ho, Or.inr hrdc⟩
      simpa [spell] using this
    | some w =>
      have := (@isDiacritic_shape '@' o '.' '@' (f ++ '.' :: w) (by simp)).mpr
        ⟨rfl, rfl, rfl, ho, Or.inl (by simp)⟩
      simpa [spell] using this

example : isDiacritic "@P.Case.Gen@".toList = true := by decide
example : WellFormed 'P' "Case".toList (some "Gen".toList) := by simp [WellFormed]
example : isDiacritic "@U.Case@".toList = false := by decide

/-- C01: the parts of a recognised flag diacritic are the operator, feature and value it is spelled
with (the value is the empty string when there is none). -/
theorem C01_parts (o : Char) (f : Str) (v : Option Str) (h : WellFormed o f v) :
    getOperator (spell o f v) = some [o] ∧
    getFeature (spell o f v) = some f ∧
    getValue (spell o f v) = some (v.getD []) ∧
    hasValue (spell o f v) = v.isSome := by
  obtain ⟨ho, hf, hv⟩ := h
  have ho' : o ≠ '.' := by rintro rfl; simp at ho
  have hfirst : ∀ t, find ('@' :: o :: '.' :: t) '.' 0 = some 2 := by
    intro t
    simp [find, List.findIdx?_cons, ho']
  cases v with
  | none =>
    have e : spell o f none = '@' :: o :: '.' :: (f ++ ['@']) := by simp [spell]
    have hn : '.' ∉ f ++ ['@'] := by simp [hf]
    have h3 : find ('@' :: o :: '.' :: (f ++ ['@'])) '.' 3 = none := by
      simp [find, findIdx?_none_of_not_mem hn]
    rw [e]
    refine ⟨rfl, ?_, ?_, ?_⟩
    · have h4 : usub (usub (f.length + 1 + 1 + 1 + 1) 1) 3 = f.length := by simp [usub]
      simp [getFeature, h3, substr, h4]
    · simp [getValue, hfirst, succPos, h3]
    · simp [hasValue, hfirst, succPos, h3]
  | some w =>
    have e : spell o f (some w) = '@' :: o :: '.' :: (f ++ '.' :: (w ++ ['@'])) := by simp [spell]
    have h3 : find ('@' :: o :: '.' :: (f ++ '.' :: (w ++ ['@']))) '.' 3 = some (f.length + 3) := by
      simp [find, findIdx?_append_cons hf]
    rw [e]
    refine ⟨rfl, ?_, ?_, ?_⟩
    · have h4 : usub (f.length + 3) 3 = f.length := by simp [usub]
      simp [getFeature, h3, substr, h4]
    · have h5 : usub (usub (f.length + (w.length + 1 + 1) + 1 + 1 + 1) 1) (f.length + 3 + 1) = w.length := by
        simp only [usub]
        split <;> split <;> omega
      simp [getValue, hfirst, succPos, h3, substr, h5, List.drop_append]
      rw [List.drop_eq_nil_of_le (by omega)]; simp
    · simp [hasValue, hfirst, succPos, h3]

/-- C01: a recognised string is spelled by the parts the library reports for it. -/
theorem C01_respell (s : Str) (h : isDiacritic s = true) :
    ∃ o f v, getOperator s = some [o] ∧ getFeature s = some f ∧ getValue s = some v ∧
      s = spell o f (if hasValue s then some v else none) := by
  obtain ⟨o, f, v, hw, rfl⟩ := (C01_isDiacritic_iff s).mp h
  obtain ⟨h1, h2, h3, h4⟩ := C01_parts o f v hw
  refine ⟨o, f, v.getD [], h1, h2, h3, ?_⟩
  rw [h4]
  cases v <;> simp

/-- `splitDiacritic`, used by both engines, finds the same parts. -/
theorem splitDiacritic_spell (o : Char) (f : Str) (v : Option Str) (h : WellFormed o f v) :
    splitDiacritic (spell o f v) = (charToOperator o).map fun op => (op, f, v) := by
  obtain ⟨ho, hf, hv⟩ := h
  have hs := charToOperator_isSome.mpr ho
  obtain ⟨op, hop⟩ := Option.isSome_iff_exists.mp hs
  cases v with
  | none =>
    obtain ⟨hne, hrdc⟩ := hv rfl
    have e : spell o f none = '@' :: o :: '.' :: (f ++ ['@']) := by simp [spell]
    have hn : '.' ∉ f ++ ['@'] := by simp [hf]
    have h3 : find ('@' :: o :: '.' :: (f ++ ['@'])) '.' 3 = none := by
      simp [find, findIdx?_none_of_not_mem hn]
    have h1 : charAt ('@' :: o :: '.' :: (f ++ ['@'])) 1 = some o := rfl
    have hop3 : op = .C ∨ op = .D ∨ op = .R := by
      simp at hrdc
      rcases hrdc with rfl | rfl | rfl <;> simp [charToOperator] at hop <;> simp [← hop]
    have h4 : usub (usub (usub (f.length + 1 + 1 + 1 + 1) 1) 2) 1 = f.length := by simp [usub]
    rw [e]
    simp only [splitDiacritic, h1, Option.bind_some, hop, h3, hop3, if_true]
    simp [substr, h4]
  | some w =>
    have e : spell o f (some w) = '@' :: o :: '.' :: (f ++ '.' :: (w ++ ['@'])) := by simp [spell]
    have h3 : find ('@' :: o :: '.' :: (f ++ '.' :: (w ++ ['@']))) '.' 3 = some (f.length + 3) := by
      simp [find, findIdx?_append_cons hf]
    have h1 : charAt ('@' :: o :: '.' :: (f ++ '.' :: (w ++ ['@']))) 1 = some o := rfl
    have h4 : usub (usub (f.length + 3) 2) 1 = f.length := by simp [usub]
    have h5 : usub (usub (usub (f.length + (w.length + 1 + 1) + 1 + 1 + 1) 1) (f.length + 3)) 1 = w.length := by
      simp only [usub]
      split <;> split <;> (try split) <;> omega
    rw [e]
    simp only [splitDiacritic, h1, Option.bind_some, hop, h3, h4]
    simp [substr, h5, List.drop_append]
    rw [List.drop_eq_nil_of_le (by omega)]; simp

theorem find_not_before {s : Str} {c : Char} {pos i : Nat} (h : find s c pos = some i) (j : Nat)
    (h1 : pos ≤ j) (h2 : j < i) : s[j]? ≠ some c := by
  simp only [find] at h
  rw [Option.map_eq_some_iff] at h
  obtain ⟨k, hk, hki⟩ := h
  rw [List.findIdx?_eq_some_iff_getElem] at hk
  obtain ⟨hlt, _, hno⟩ := hk
  intro hc
  have := hno (j - pos) (by omega)
  rw [List.getElem_drop] at this
  have e : pos + (j - pos) = j := by omega
  simp only [e] at this
  rw [List.getElem?_eq_some_iff] at hc
  obtain ⟨hjl, hjc⟩ := hc
  simp [hjc] at this

/-! ## C04: `FdTable::is_valid_string` -/

theorem runSymbols_errorFlag {T : Type} [BEq T] (t : FdTable T) (st st' : FdState) (w : List T)
    (h : t.runSymbols st w = some st') : st'.errorFlag = st.errorFlag := by
  induction w generalizing st with
  | nil => simp [FdTable.runSymbols] at h; rw [h]
  | cons x xs ih =>
    have key : ∀ b st1, st.applySymbol t x = some (b, st1) → st1.errorFlag = st.errorFlag := by
      intro b st1 h1
      unfold FdState.applySymbol at h1
      split at h1
      · unfold FdState.apply at h1
        split at h1
        · simp at h1
        · simp only [Option.some.injEq] at h1
          split at h1 <;> grind
      · simp at h1; rw [h1.2]
    unfold FdTable.runSymbols at h
    split at h
    · simp at h
    · rename_i st1 h1
      rw [ih _ h, key _ _ h1]
    · rename_i st1 h1
      simp at h
      rw [← h, key _ _ h1]

/-- C04 is violated by the shipped code: `FdTable::is_valid_string` never answers `false`. -/
theorem C04_never_false_violated {T : Type} [BEq T] (t : FdTable T) (w : List T) :
    t.isValidString w ≠ some false := by
  unfold FdTable.isValidString
  intro h
  rw [Option.map_eq_some_iff] at h
  obtain ⟨st, h1, h2⟩ := h
  have := runSymbols_errorFlag t _ _ _ h1
  simp [FdState.init] at this
  simp [this] at h2

/-- C04, the part that holds: a sequence none of whose operations is refused is declared valid.  Missing: the
converse, which is false (`C04_violated`). -/
theorem C04_accepts_valid_partial {T : Type} [BEq T] (t : FdTable T) (w : List T)
    (h : t.passes (FdState.init t.numFeatures) w = some true) : t.isValidString w = some true := by
  have gen : ∀ st, t.passes st w = some true → ∃ st', t.runSymbols st w = some st' := by
    clear h
    induction w with
    | nil => intro st _; exact ⟨st, rfl⟩
    | cons x xs ih =>
      intro st hp
      unfold FdTable.passes at hp
      split at hp
      · simp at hp
      · rename_i st1 h1
        obtain ⟨st', h2⟩ := ih st1 hp
        exact ⟨st', by simp [FdTable.runSymbols, h1, h2]⟩
      · simp at hp
  obtain ⟨st', hst⟩ := gen _ h
  have := runSymbols_errorFlag t _ _ _ hst
  simp [FdState.init] at this
  simp [FdTable.isValidString, hst, this]

/-- The table of the witness: symbol 1 is `@R.F.x@`. -/
def witnessTable : Option (FdTable Nat) := FdTable.empty.define 1 "@R.F.x@".toList

/-- C04 violated, concretely: requiring a feature that was never set is refused by the engine, yet the
sequence is declared valid. -/
theorem C04_violated :
    ∃ t : FdTable Nat, witnessTable = some t ∧
      t.passes (FdState.init t.numFeatures) [1] = some false ∧ t.isValidString [1] = some true := by
  refine ⟨_, rfl, ?_, ?_⟩ <;> decide

/-- C04 also concerns the overload taking a string: `find_diacritic` never finds a diacritic that is
not followed by another '@' directly after it, because the candidate it inspects lacks the closing '@'. -/
theorem C04_findDiacritic_never_violated (s : Str) : findDiacritic s = none := by
  unfold findDiacritic
  split
  · rfl
  rename_i start hstart
  split
  · rfl
  rename_i stop hstop
  split
  · rfl
  rename_i t ht
  have hsl : start + 1 ≤ stop := by
    simp only [find] at hstop
    rw [Option.map_eq_some_iff] at hstop
    obtain ⟨i, _, hi⟩ := hstop
    omega
  have hnot : isDiacritic t = false := by
    rw [Bool.eq_false_iff]
    intro hd
    obtain ⟨o, f, v, hw, rfl⟩ := (C01_isDiacritic_iff t).mp hd
    -- the last character of the candidate is '@', at a position strictly between start and stop
    have hlen : 5 ≤ (spell o f v).length := by
      by_cases hl : (spell o f v).length < 5
      · simp [isDiacritic, hl] at hd
      · omega
    have hat : (spell o f v)[(spell o f v).length - 1]? = some '@' := by
      obtain ⟨u, hu⟩ : ∃ u, spell o f v = u ++ ['@'] := by
        cases v with
        | none => exact ⟨['@', o, '.'] ++ f, by simp [spell]⟩
        | some w => exact ⟨['@', o, '.'] ++ f ++ '.' :: w, by simp [spell]⟩
      rw [hu]
      simp
    generalize spell o f v = t at *
    simp only [substr] at ht
    split at ht
    · have hu : usub stop start = stop - start := by simp [usub]; omega
      rw [hu] at ht
      simp only [Option.some.injEq] at ht
      subst ht
      rw [List.getElem?_take, List.getElem?_drop] at hat
      simp only [List.length_take, List.length_drop] at hlen hat
      split at hat
      · exact find_not_before hstop _ (by omega) (by omega) hat
      · simp at hat
    · simp at ht
  simp [hnot]

/-! ## C05: removing flags -/

theorem foldl_filter {α : Type} (p : α → Bool) (w acc : List α) :
    w.foldl (fun acc s => if p s then acc else acc ++ [s]) acc = acc ++ w.filter (fun s => !p s) := by
  induction w generalizing acc with
  | nil => simp
  | cons x xs ih =>
    simp only [List.foldl_cons, List.filter_cons]
    by_cases hp : p x = true <;> simp [hp, ih]

theorem foldl_filter' {α : Type} (p : α → Bool) (w acc : List α) :
    w.foldl (fun acc s => if p s then acc ++ [s] else acc) acc = acc ++ w.filter p := by
  induction w generalizing acc with
  | nil => simp
  | cons x xs ih =>
    simp only [List.foldl_cons, List.filter_cons]
    by_cases hp : p x = true <;> simp [hp, ih]

/-- Specification of "removing exactly the elements with property `bad`": what is left is a sublist, has no
bad element, and every good element keeps its number of occurrences (so, being a sublist, its order). -/
def RemovesExactly {α : Type} [BEq α] (bad : α → Prop) (before after : List α) : Prop :=
  after.Sublist before ∧ (∀ x ∈ after, ¬ bad x) ∧ ∀ x, ¬ bad x → after.count x = before.count x

theorem removesExactly_filter {α : Type} [BEq α] [LawfulBEq α] (p : α → Bool) (w : List α) :
    RemovesExactly (fun x => p x = true) w (w.filter (fun s => !p s)) := by
  refine ⟨List.filter_sublist, ?_, ?_⟩
  · intro x hx
    simp [List.mem_filter] at hx
    simp [hx.2]
  · intro x hx
    rw [List.count_filter]
    simpa using hx

/-- C05 for symbol vectors (both implementations). -/
theorem C05_removeFlags (w : List Str) :
    RemovesExactly (fun s => isDiacritic s = true) w (removeFlags w) ∧
    RemovesExactly (fun s => isDiacritic s = true) w (filterDiacritics w) ∧
    removeFlags (removeFlags w) = removeFlags w := by
  have h : removeFlags w = w.filter (fun s => !isDiacritic s) := by
    simp [removeFlags, foldl_filter]
  have h' : filterDiacritics w = w.filter (fun s => !isDiacritic s) := by
    simp [filterDiacritics, foldl_filter]
  refine ⟨?_, ?_, ?_⟩
  · rw [h]; exact removesExactly_filter _ _
  · rw [h']; exact removesExactly_filter _ _
  · rw [h]
    simp [removeFlags, foldl_filter]

example : removeFlags ["a".toList, "@P.F.x@".toList, "b".toList] = ["a".toList, "b".toList] := by decide

/-- C05 for pair vectors: a pair goes exactly if one of its sides is a flag. -/
theorem C05_removeFlagsPairs (w : List (Str × Str)) :
    RemovesExactly (fun p => isDiacritic p.1 = true ∨ isDiacritic p.2 = true) w (removeFlagsPairs w) ∧
    removeFlagsPairs (removeFlagsPairs w) = removeFlagsPairs w := by
  have h : ∀ w, removeFlagsPairs w =
      w.filter (fun s => !(isDiacritic s.1 || isDiacritic s.2)) := by
    intro w
    rw [removeFlagsPairs, foldl_filter' (fun p : Str × Str => !isDiacritic p.1 && !isDiacritic p.2)]
    simp
  refine ⟨?_, ?_⟩
  · rw [h]
    have := removesExactly_filter (fun s : Str × Str => isDiacritic s.1 || isDiacritic s.2) w
    simpa using this
  · rw [h, h]; simp

example : removeFlagsPairs [("a".toList, "b".toList), ("@P.F.x@".toList, "@P.F.x@".toList)]
    = [("a".toList, "b".toList)] := by decide

/-- C05 for paths: the weight is kept and the pairs are treated as above. -/
theorem C05_removeFlagsPath {W : Type} (p : W × List (Str × Str)) :
    (removeFlagsPath p).1 = p.1 ∧
    RemovesExactly (fun p => isDiacritic p.1 = true ∨ isDiacritic p.2 = true) p.2 (removeFlagsPath p).2 :=
  ⟨rfl, (C05_removeFlagsPairs p.2).1⟩

end Hfst.Flags
