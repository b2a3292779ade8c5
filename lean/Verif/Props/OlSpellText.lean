import Verif.Props.OlSpellCorrect
import Verif.Props.OlEncode

/-!
# The spell checker with strings (C42)
-/
namespace Hfst.Ol
open Hfst.Basic

/-! ## The translation of symbol numbers -/

theorem lastNumber_nodup {table : List Bytes} (hn : table.Nodup) {s : Bytes} {k : Nat} (hk : table[k]? = some s) : lastNumber table s = some k := by
  unfold lastNumber
  have hmem : ∀ i, i ∈ (List.range table.length).filter (fun i => table[i]? == some s) ↔ i = k := by
    intro i
    rw [List.mem_filter, List.mem_range, beq_iff_eq]
    constructor
    · rintro ⟨h1, h2⟩
      exact (List.getElem?_inj h1 hn).mp (h2.trans hk.symm)
    · rintro rfl
      exact ⟨(List.getElem?_eq_some_iff.mp hk).1, hk⟩
  cases hl : ((List.range table.length).filter fun i => table[i]? == some s).getLast? with
  | none =>
    rw [List.getLast?_eq_none_iff] at hl
    have := (hmem k).mpr rfl
    rw [hl] at this
    cases this
  | some j =>
    rw [(hmem j).mp (List.mem_of_getLast? hl)]

theorem translate_get {M : Machine} {names : List Bytes} : ∀ (xs : List Bytes) (i : Nat) (l : List Nat), translateFrom M names xs i = .ok l →
    ∀ (j : Nat) (x : Bytes) (k : Nat), xs[j]? = some x → M.isFlag (i + j) = false → i + j ≠ M.alphabet.unknown → lastNumber names x = some k → l[j]? = some k
  | [], _, _, _, j, _, _, hx, _, _, _ => by simp at hx
  | y :: ys, i, l, hl, j, x, k, hx, hf, hu, hk => by
    rw [translateFrom] at hl
    cases j with
    | zero =>
      have hxy : y = x := by simpa using hx
      subst hxy
      rw [if_neg (by rw [Nat.add_zero] at hf hu; rw [hf]; simp [hu]), hk] at hl
      obtain ⟨l', _, h2⟩ := bind_ok.mp hl
      injection h2 with h2
      rw [← h2]
      rfl
    | succ j =>
      have hrest : ∃ y' l', translateFrom M names ys (i + 1) = .ok l' ∧ l = y' :: l' := by
        split at hl
        · obtain ⟨l', h1, h2⟩ := bind_ok.mp hl
          injection h2 with h2
          exact ⟨_, l', h1, h2.symm⟩
        · split at hl
          · obtain ⟨l', h1, h2⟩ := bind_ok.mp hl
            injection h2 with h2
            exact ⟨_, l', h1, h2.symm⟩
          · split at hl
            · cases hl
            · obtain ⟨l', h1, h2⟩ := bind_ok.mp hl
              injection h2 with h2
              exact ⟨_, l', h1, h2.symm⟩
      obtain ⟨y', l', h1, rfl⟩ := hrest
      rw [List.getElem?_cons_succ]
      have he : i + 1 + j = i + (j + 1) := by omega
      exact translate_get ys (i + 1) l' h1 j x k (by simpa using hx) (by rw [he]; exact hf) (by rw [he]; exact hu) hk

theorem make_parts {M L : Machine} {S : Speller} (h : Speller.make M L = .ok S) : S.mutator = M ∧ S.lexicon = L ∧
    ∃ l, translateFrom M L.alphabet.table (M.alphabet.table.drop 1) 1 = .ok l ∧ S.translator = 0 :: l := by
  unfold Speller.make at h
  obtain ⟨l, h1, h2⟩ := bind_ok.mp h
  injection h2 with h2
  subst h2
  exact ⟨rfl, rfl, l, h1, rfl⟩

theorem make_translates {M L : Machine} {S : Speller} (h : Speller.make M L = .ok S) (hn : L.alphabet.table.Nodup) {x k : Nat} (hx : x ≠ 0)
    (hf : ¬ M.kinds.Flag x) (hu : x ≠ M.alphabet.unknown) {s : Bytes} (hs : M.alphabet.table[x]? = some s) (hk : L.alphabet.table[k]? = some s) :
    S.translator[x]? = some k := by
  obtain ⟨_, _, l, h1, h2⟩ := make_parts h
  rw [h2]
  obtain ⟨x, rfl⟩ := Nat.exists_eq_succ_of_ne_zero hx
  rw [List.getElem?_cons_succ]
  have he : 1 + x = x.succ := by omega
  refine translate_get _ 1 l h1 x s k ?_ ?_ ?_ (lastNumber_nodup hn hk)
  · rw [List.getElem?_drop, he]
    exact hs
  · rw [he]
    exact not_flag hf
  · rw [he]
    exact hu

/-! ## Reading the input -/

theorem longest_unique {n : Nat} {table : List Bytes} {s x y : Bytes} {j k : Nat} (hx : Longest n table.length table s x j)
    (hy : Longest n table.length table s y k) : x = y ∧ j = k := by
  have h1 := hx.longest y k hy.knows hy.starts
  have h2 := hy.longest x j hx.knows hx.starts
  have h3 : x = y := by
    obtain ⟨t, ht⟩ := hx.starts
    obtain ⟨u, hu⟩ := hy.starts
    exact (List.append_inj (ht.trans hu.symm) (by omega)).1
  subst h3
  have h4 := hx.last k hy.knows
  have h5 := hy.last j hx.knows
  exact ⟨rfl, by omega⟩

theorem spells_unique {n : Nat} {table : List Bytes} {other : Nat} {s : Bytes} {ks ks' : List Nat} (hfine : ∀ x ∈ table, x ≠ [])
    (h : Spells n table other s ks) (h' : Spells n table other s ks') : ks = ks' := by
  have hne : ∀ {s x k}, Longest n table.length table s x k → x ≠ [] := fun hl => hfine _ (List.mem_of_getElem? hl.knows.2)
  induction h generalizing ks' with
  | done =>
    generalize hs : ([] : Bytes) = s at h'
    cases h' with
    | done => rfl
    | known hl _ =>
      have := (List.append_eq_nil_iff.mp hs.symm).1
      exact absurd this (hne hl)
    | other => cases hs
  | @known x rest k ks hl _ ih =>
    generalize hs : x ++ rest = s at h'
    rw [hs] at hl
    cases h' with
    | done => exact absurd (List.append_eq_nil_iff.mp hs).1 (hne hl)
    | known hl' hr' =>
      obtain ⟨h1, h2⟩ := longest_unique hl hl'
      subst h1
      have h3 := List.append_cancel_left hs
      subst h3
      rw [h2, ih hr']
    | other _ hu' => exact absurd hl.starts (hu' x k hl.knows)
  | @other c x rest ks _ hu hx _ ih =>
    generalize hs : c :: x ++ rest = s at h'
    rw [hs] at hu
    cases h' with
    | done => cases hs
    | @known x' rest' k' ks' hl' hr' => exact absurd hl'.starts (hu x' k' hl'.knows)
    | @other c' x' rest' ks' _ hu' hx' hr' =>
      rw [List.cons_append, List.cons_append] at hs
      injection hs with h1 h2
      subst h1
      obtain ⟨h3, h4⟩ := List.append_inj h2 (by omega)
      subst h4
      rw [ih hr']

/-- Reading comes to an unknown character that is cut off by the end of the input. -/
inductive CutShort (n : Nat) (table : List Bytes) (other : Nat) : Bytes → Prop
  | here {c : UInt8} {rest : Bytes} : other ≠ noSymbol → Unknown n table.length table (c :: rest) → (c :: rest).length < Utf8.nByteUtf8 c →
      CutShort n table other (c :: rest)
  | known {x rest : Bytes} {k : Nat} : Longest n table.length table (x ++ rest) x k → CutShort n table other rest → CutShort n table other (x ++ rest)
  | other {c : UInt8} {x rest : Bytes} : other ≠ noSymbol → Unknown n table.length table (c :: x ++ rest) → x.length + 1 = Utf8.nByteUtf8 c →
      CutShort n table other rest → CutShort n table other (c :: x ++ rest)

theorem cut_not_spells {n : Nat} {table : List Bytes} {other : Nat} {s : Bytes} (hfine : ∀ x ∈ table, x ≠ []) (h : CutShort n table other s) :
    ∀ ks, ¬ Spells n table other s ks := by
  have hne : ∀ {s x k}, Longest n table.length table s x k → x ≠ [] := fun hl => hfine _ (List.mem_of_getElem? hl.knows.2)
  induction h with
  | @here c rest _ hu hlen =>
    intro ks hks
    generalize hs : c :: rest = s at hks
    rw [hs] at hu hlen
    cases hks with
    | done => cases hs
    | @known x' rest' k' ks' hl' hr' => exact hu x' k' hl'.knows hl'.starts
    | @other c' x' rest' ks' _ hu' hx' hr' =>
      rw [List.cons_append] at hs
      injection hs with h1 h2
      subst h1
      rw [List.length_append, List.length_cons] at hlen
      omega
  | @known x rest k hl _ ih =>
    intro ks hks
    generalize hs : x ++ rest = s at hks
    rw [hs] at hl
    cases hks with
    | done => exact hne hl (List.append_eq_nil_iff.mp hs).1
    | known hl' hr' =>
      obtain ⟨h1, h2⟩ := longest_unique hl hl'
      subst h1
      have h3 := List.append_cancel_left hs
      subst h3
      exact ih _ hr'
    | other _ hu' => exact hu' x k hl.knows hl.starts
  | @other c x rest _ hu hx _ ih =>
    intro ks hks
    generalize hs : c :: x ++ rest = s at hks
    rw [hs] at hu
    cases hks with
    | done => cases hs
    | @known x' rest' k' ks' hl' hr' => exact hu x' k' hl'.knows hl'.starts
    | @other c' x' rest' ks' _ hu' hx' hr' =>
      rw [List.cons_append, List.cons_append] at hs
      injection hs with h1 h2
      subst h1
      obtain ⟨h3, h4⟩ := List.append_inj h2 (by omega)
      subst h4
      exact ih _ hr'

theorem spell_step {fuel : Nat} {c : UInt8} {rest : Bytes} {e : Encoder} {other : Nat} {r : Nat × Nat} (hr : e.find (c :: rest) = .ok r) :
    spellInput (fuel + 1) (c :: rest) e other =
      if r.1 = noSymbol then
        if Utf8.nByteUtf8 c = 0 then .ok none
        else if other = noSymbol then .ok none
        else if (c :: rest).length < Utf8.nByteUtf8 c then .undefined
        else (spellInput fuel ((c :: rest).drop (Utf8.nByteUtf8 c)) e other).bind fun q => .ok (q.map fun ks => other :: ks)
      else if (c :: rest).length < r.2 then .undefined
      else (spellInput fuel ((c :: rest).drop r.2) e other).bind fun q => .ok (q.map fun ks => r.1 :: ks) := by
  rw [spellInput, hr]
  rfl

/-- If the input starts with an unknown character, nothing else can be read. -/
theorem unknown_spells {n : Nat} {table : List Bytes} {other : Nat} {c : UInt8} {rest : Bytes} (hu : Unknown n table.length table (c :: rest)) {ks : List Nat}
    (h : Spells n table other (c :: rest) ks) : other ≠ noSymbol ∧ ∃ x rest' ks', rest = x ++ rest' ∧ x.length + 1 = Utf8.nByteUtf8 c ∧
      Spells n table other rest' ks' := by
  generalize hs : c :: rest = s at h
  rw [hs] at hu
  cases h with
  | done => cases hs
  | @known x' rest' k' ks' hl' hr' => exact absurd hl'.starts (hu x' k' hl'.knows)
  | @other c' x' rest' ks' ho hu' hx' hr' =>
    rw [List.cons_append] at hs
    injection hs with h1 h2
    subst h1
    exact ⟨ho, x', rest', ks', h2, hx', hr'⟩

/-- If the input starts with a known symbol, the longest one is read. -/
theorem known_spells {n : Nat} {table : List Bytes} {other : Nat} (hfine : ∀ x ∈ table, x ≠ []) {x rest : Bytes} {k : Nat}
    (hl : Longest n table.length table (x ++ rest) x k) {ks : List Nat} (h : Spells n table other (x ++ rest) ks) : ∃ ks', Spells n table other rest ks' := by
  generalize hs : x ++ rest = s at h
  rw [hs] at hl
  cases h with
  | done => exact absurd (List.append_eq_nil_iff.mp hs).1 (hfine _ (List.mem_of_getElem? hl.knows.2))
  | known hl' hr' =>
    obtain ⟨g1, g2⟩ := longest_unique hl hl'
    subst g1
    have h3 := List.append_cancel_left hs
    subst h3
    exact ⟨_, hr'⟩
  | other _ hu' => exact absurd hl.starts (hu' x k hl.knows)

theorem spell_input {table : List Bytes} {n : Nat} (hn : n ≤ table.length) (hfine : ∀ x ∈ table, x ≠ []) (hsize : table.length ≤ noSymbol) {e : Encoder}
    (he : EncInv (knownOf table n []) e) (other : Nat) : ∀ (fuel : Nat) (s : Bytes), s.length < fuel →
    (∃ ks, spellInput fuel s e other = .ok (some ks) ∧ Spells n table other s ks) ∨
    (spellInput fuel s e other = .ok none ∧ ∀ ks, ¬ Spells n table other s ks) ∨
    (spellInput fuel s e other = .undefined ∧ CutShort n table other s)
  | 0, _, h => by omega
  | fuel + 1, [], _ => .inl ⟨[], rfl, .done⟩
  | fuel + 1, c :: rest, h => by
    obtain ⟨r, hr, hl⟩ := encFind_spec he (s := c :: rest) (by simp)
    have hstep := spell_step (fuel := fuel) (other := other) hr
    have hl := longest_of hn (extra := []) (by rw [List.length_nil]; omega) hl
    rw [List.append_nil] at hl
    rcases hl with ⟨h1, hu⟩ | ⟨h1, h2, hl⟩
    · rw [if_pos h1] at hstep
      by_cases h0 : Utf8.nByteUtf8 c = 0
      · rw [if_pos h0] at hstep
        refine .inr (.inl ⟨hstep, fun ks hks => ?_⟩)
        obtain ⟨_, x, _, _, _, hx, _⟩ := unknown_spells hu hks
        omega
      · rw [if_neg h0] at hstep
        by_cases ho : other = noSymbol
        · rw [if_pos ho] at hstep
          exact .inr (.inl ⟨hstep, fun ks hks => (unknown_spells hu hks).1 ho⟩)
        · rw [if_neg ho] at hstep
          by_cases hlen : (c :: rest).length < Utf8.nByteUtf8 c
          · rw [if_pos hlen] at hstep
            exact .inr (.inr ⟨hstep, .here ho hu hlen⟩)
          · rw [if_neg hlen] at hstep
            obtain ⟨m, hm⟩ := Nat.exists_eq_succ_of_ne_zero h0
            have hsplit : c :: rest = c :: rest.take m ++ rest.drop m := by rw [List.cons_append, List.take_append_drop]
            have hdrop : (c :: rest).drop (Utf8.nByteUtf8 c) = rest.drop m := by rw [hm]; rfl
            have hlen' : (rest.take m).length + 1 = Utf8.nByteUtf8 c := by
              rw [List.length_take]
              rw [List.length_cons] at hlen
              omega
            rw [hdrop] at hstep
            have hu' := hu
            rw [hsplit] at hu'
            rcases spell_input hn hfine hsize he other fuel (rest.drop m) (by rw [List.length_drop]; rw [List.length_cons] at h; omega) with
              ⟨ks, i1, i2⟩ | ⟨i1, i2⟩ | ⟨i1, i2⟩
            · rw [i1] at hstep
              refine .inl ⟨other :: ks, hstep, ?_⟩
              rw [hsplit]
              exact .other ho hu' hlen' i2
            · rw [i1] at hstep
              refine .inr (.inl ⟨hstep, fun ks hks => ?_⟩)
              obtain ⟨_, x, rest', ks', g1, g2, g3⟩ := unknown_spells hu hks
              have : rest.drop m = rest' := by
                rw [g1, List.drop_left' (by omega)]
              rw [← this] at g3
              exact i2 _ g3
            · rw [i1] at hstep
              refine .inr (.inr ⟨hstep, ?_⟩)
              rw [hsplit]
              exact .other ho hu' hlen' i2
    · rw [if_neg h1, if_neg (by omega)] at hstep
      have hsplit : c :: rest = (c :: rest).take r.2 ++ (c :: rest).drop r.2 := (List.take_append_drop _ _).symm
      have hpos : r.2 ≠ 0 := by
        intro h0
        rw [h0] at hl
        exact hfine _ (List.mem_of_getElem? hl.knows.2) rfl
      have hdl : ((c :: rest).drop r.2).length < fuel := by
        rw [List.length_drop]
        omega
      generalize (c :: rest).take r.2 = x at hsplit hl
      generalize (c :: rest).drop r.2 = d at hsplit hstep hdl
      rw [hsplit] at hl
      rcases spell_input hn hfine hsize he other fuel d hdl with ⟨ks, i1, i2⟩ | ⟨i1, i2⟩ | ⟨i1, i2⟩
      · rw [i1] at hstep
        refine .inl ⟨r.1 :: ks, hstep, ?_⟩
        rw [hsplit]
        exact .known hl i2
      · rw [i1] at hstep
        refine .inr (.inl ⟨hstep, fun ks hks => ?_⟩)
        rw [hsplit] at hks
        obtain ⟨ks', hks'⟩ := known_spells hfine hl hks
        exact i2 ks' hks'
      · rw [i1] at hstep
        refine .inr (.inr ⟨hstep, ?_⟩)
        rw [hsplit]
        exact .known hl i2

end Hfst.Ol
