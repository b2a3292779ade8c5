import Verif.Model.ToolInfo
import Verif.Spec.ToolInfo

/-!
# C101: hfst-info tests the version and the features of the library
-/
namespace Hfst.Info
open Hfst.StdString Hfst.Basic Hfst.Text

theorem number_end {t : Str} (h : Digits t) : number t = (digitsValue t, []) := by
  unfold number
  have e : t.takeWhile isDigit = t := by
    have := List.takeWhile_append_of_pos (l₂ := []) h.2
    simpa using this
  have e2 : t.dropWhile isDigit = [] := by
    have := List.dropWhile_append_of_pos (l₂ := []) h.2
    simpa using this
  rw [e, e2]

theorem number_dot {t : Str} (h : Digits t) (s : Str) : number (t ++ '.' :: s) = (digitsValue t, '.' :: s) := by
  unfold number
  have hd : isDigit '.' = false := by decide
  rw [List.takeWhile_append_of_pos h.2, List.dropWhile_append_of_pos h.2, List.takeWhile_cons, List.dropWhile_cons, if_neg (by simp [hd]),
    if_neg (by simp [hd]), List.append_nil]

theorem parse_spells {s : Str} {v : Version} (h : Spells s v) : parseVersion s = some (v.major * 10000 * 10000 + v.minor * 10000 + v.patch) := by
  cases h with
  | one a ha => simp [parseVersion, number_end ha]
  | two a b ha hb => simp [parseVersion, number_dot ha, number_end hb]
  | three a b c ha hb hc =>
    have e : a ++ '.' :: b ++ '.' :: c = a ++ '.' :: (b ++ '.' :: c) := by simp
    simp [parseVersion, e, number_dot ha, number_dot hb, number_end hc]

theorem info_atLeast (b : Build) {s : Str} {n : Nat} (h : parseVersion s = some n) :
    info b { atLeast := some s } = if longVersion < n then .failure else .success := by
  simp [info, readVersion, h]

theorem info_exact (b : Build) {s : Str} {n : Nat} (h : parseVersion s = some n) :
    info b { exact := some s } = if longVersion ≠ n then .failure else .success := by
  simp [info, readVersion, h]

theorem info_max (b : Build) {s : Str} {n : Nat} (h : parseVersion s = some n) :
    info b { max := some s } = if longVersion < n then .failure else .success := by
  simp [info, readVersion, h]

theorem info_feature (b : Build) (f : Str) : info b { features := [f] } = if featureStep b f then .success else .failure := by
  simp [info, readVersion]

theorem notAfter_iff {v : Version} (h : v.Small) : v.NotAfter current ↔ ¬ longVersion < v.major * 10000 * 10000 + v.minor * 10000 + v.patch := by
  obtain ⟨h1, h2⟩ := h
  unfold Version.NotAfter current longVersion
  simp only
  omega

theorem eq_iff {v : Version} (h : v.Small) : v = current ↔ longVersion = v.major * 10000 * 10000 + v.minor * 10000 + v.patch := by
  obtain ⟨h1, h2⟩ := h
  unfold current longVersion
  constructor
  · rintro rfl; rfl
  · intro e
    cases v
    simp only [Version.mk.injEq] at *
    omega

/-- **C101, -a and -e (partial)**: for all versions whose second and third number are below 10000, -a succeeds exactly if the version asked
for is not after that of the library, -e exactly if it is the same, and both together exactly if both are so.  Missing: greater numbers
(`C101_great_number_violated`), and -m (`C101_max_violated`). -/
theorem C101_version_partial (b : Build) {s t : Str} {v w : Version} (hs : Spells s v) (hv : v.Small) (ht : Spells t w) (hw : w.Small) :
    (info b { atLeast := some s } = .success ↔ v.NotAfter current) ∧
    (info b { exact := some t } = .success ↔ w = current) ∧
    (info b { atLeast := some s, exact := some t } = .success ↔ v.NotAfter current ∧ w = current) := by
  rw [notAfter_iff hv, eq_iff hw]
  refine ⟨?_, ?_, ?_⟩
  · simp [info, readVersion, parse_spells hs]
  · simp only [info, readVersion, parse_spells ht, Option.map_some, Option.some.injEq, exists_eq_left']
    by_cases h : longVersion = w.major * 10000 * 10000 + w.minor * 10000 + w.patch <;> simp [h]
  · simp only [info, readVersion, parse_spells hs, parse_spells ht, Option.map_some, Option.some.injEq, exists_eq_left']
    by_cases h : longVersion = w.major * 10000 * 10000 + w.minor * 10000 + w.patch <;>
      by_cases h' : longVersion < v.major * 10000 * 10000 + v.minor * 10000 + v.patch <;> simp [h, h']

/-- **C101, wrong versions**: with a character that is neither a digit nor a full stop, or with three full stops, the tool fails, whatever
else is asked for. -/
theorem C101_wrong (b : Build) (o : Options) (s : Str) (h : (∃ c ∈ s, isDigit c = false ∧ c ≠ '.') ∨ 3 ≤ s.count '.')
    (ho : o.atLeast = some s ∨ o.exact = some s ∨ o.max = some s) : info b o = .failure := by
  have key : ∀ t : Str, (∀ c, t.dropWhile isDigit = [] → c ∈ t → isDigit c = true) ∧
      (∀ c r, t.dropWhile isDigit = c :: r → t.count '.' = (c :: r).count '.' ∧ ∀ x ∈ t, isDigit x = true ∨ x ∈ c :: r) := by
    intro t
    have e := List.takeWhile_append_dropWhile (p := isDigit) (l := t)
    have hd : ∀ x ∈ t.takeWhile isDigit, isDigit x = true := fun x hx => by
      have := List.all_takeWhile (p := isDigit) (l := t)
      exact List.all_eq_true.1 this x hx
    constructor
    · intro c h0 hc
      rw [← e, h0, List.append_nil] at hc
      exact hd c hc
    · intro c r h0
      constructor
      · have hz : (t.takeWhile isDigit).count '.' = 0 := List.count_eq_zero.2 fun hx => by
          have := hd _ hx
          revert this
          decide
        have := congrArg (List.count '.') e
        rw [List.count_append, hz, Nat.zero_add, h0] at this
        exact this.symm
      · intro x hx
        rw [← e, h0, List.mem_append] at hx
        rcases hx with hx | hx
        · exact .inl (hd x hx)
        · exact .inr hx
  have key0 : ∀ t : Str, t.dropWhile isDigit = [] → t.count '.' = 0 := by
    intro t h0
    apply List.count_eq_zero.2
    intro hx
    have := (key t).1 '.' h0 hx
    revert this
    decide
  have hp : parseVersion s = none := by
    unfold parseVersion number
    simp only
    split
    · rename_i h1
      exfalso
      rcases h with ⟨c, hc, hd, _⟩ | h
      · rw [(key s).1 c h1 hc] at hd; cases hd
      · rw [key0 s h1] at h; omega
    · rename_i c s2 h1
      split
      · rfl
      · rename_i hc
        have hc : c = '.' := by simpa using hc
        subst hc
        obtain ⟨k1, k2⟩ := (key s).2 _ _ h1
        have h' : (∃ c ∈ s2, isDigit c = false ∧ c ≠ '.') ∨ 2 ≤ s2.count '.' := by
          rcases h with ⟨x, hx, hd, hn⟩ | h
          · left
            rcases k2 x hx with h2 | h2
            · rw [h2] at hd; cases hd
            · rcases List.mem_cons.1 h2 with h2 | h2
              · exact absurd h2 hn
              · exact ⟨x, h2, hd, hn⟩
          · right
            rw [k1, List.count_cons_self] at h
            omega
        split
        · rename_i h2
          exfalso
          rcases h' with ⟨c, hc, hd, _⟩ | h'
          · rw [(key s2).1 c h2 hc] at hd; cases hd
          · rw [key0 s2 h2] at h'; omega
        · rename_i d s3 h2
          split
          · rfl
          · rename_i hd
            have hd : d = '.' := by simpa using hd
            subst hd
            obtain ⟨k3, k4⟩ := (key s2).2 _ _ h2
            split
            · rename_i h3
              exfalso
              rcases h' with ⟨x, hx, hd, hn⟩ | h'
              · rcases k4 x hx with h4 | h4
                · rw [h4] at hd; cases hd
                · rcases List.mem_cons.1 h4 with h4 | h4
                  · exact absurd h4 hn
                  · rw [(key s3).1 x h3 h4] at hd; cases hd
              · rw [k3, List.count_cons_self, key0 s3 h3] at h'; omega
            · rfl
  unfold info
  rcases ho with ho | ho | ho
  · simp [ho, readVersion, hp]
  · simp only [ho, readVersion, hp, Option.map_none]
    split
    · rename_i h2 _; cases h2
    · rfl
  · simp only [ho, readVersion, hp, Option.map_none]
    split
    · rename_i h3; cases h3
    · rfl

/-- **C101, -m (violated)**: -m succeeds exactly if the version asked for is *not after* that of the library, like -a, although it is to
require at most that version: `-m 4` fails and `-m 3.16` succeeds. -/
theorem C101_max_violated (b : Build) :
    (∀ s v, Spells s v → v.Small → (info b { max := some s } = .success ↔ v.NotAfter current)) ∧
    (¬ (⟨4, 0, 0⟩ : Version).NotAfter current ∧ current.NotAfter ⟨4, 0, 0⟩ ∧ info b { max := some "4".toList } = .failure) ∧
    (¬ current.NotAfter ⟨3, 16, 0⟩ ∧ info b { max := some "3.16".toList } = .success) := by
  refine ⟨fun s v hs hv => ?_, ⟨?_, ?_, ?_⟩, ?_, ?_⟩
  · rw [notAfter_iff hv]
    simp [info, readVersion, parse_spells hs]
  · unfold Version.NotAfter current; simp
  · unfold Version.NotAfter current; simp
  · have : parseVersion "4".toList = some 400000000 := by decide +kernel
    rw [info_max b this, if_pos (by decide)]
  · unfold Version.NotAfter current; simp
  · have : parseVersion "3.16".toList = some 300160000 := by decide +kernel
    rw [info_max b this, if_neg (by decide)]

/-- **C101, features (partial)**: -f succeeds for SFST exactly if the library has it, for ICU always, and fails for a name that is not
known.  Missing: foma, xfsm and OpenFst (`C101_feature_violated`). -/
theorem C101_feature_partial (b : Build) :
    (∀ f ∈ ["sfst".toList, "SFST".toList, "HAVE_SFST".toList], (info b { features := [f] } = .success ↔ b.sfst = true)) ∧
    (∀ f ∈ ["icu".toList, "USE_ICU_UNICODE".toList], info b { features := [f] } = .success) ∧
    (∀ f fs, f ∉ ["sfst".toList, "SFST".toList, "HAVE_SFST".toList, "foma".toList, "FOMA".toList, "HAVE_FOMA".toList, "xfsm".toList,
      "XFSM".toList, "HAVE_XFSM".toList, "openfst".toList, "OPENFST".toList, "HAVE_OPENFST".toList, "icu".toList, "USE_ICU_UNICODE".toList] →
      f ∈ fs → ∀ o : Options, info b { o with features := fs } = .failure) := by
  refine ⟨?_, ?_, ?_⟩
  · intro f hf
    have : featureStep b f = b.sfst := by
      unfold featureStep
      rw [if_pos (by simpa only [List.mem_cons, List.not_mem_nil, or_false] using hf)]
    rw [info_feature, this]
    cases b.sfst <;> simp
  · intro f hf
    have : featureStep b f = true := by
      simp only [List.mem_cons, List.not_mem_nil, or_false] at hf
      rcases hf with rfl | rfl <;> rfl
    rw [info_feature, this]
    rfl
  · intro f fs hf hm o
    have : featureStep b f = false := by
      simp only [List.mem_cons, List.not_mem_nil, or_false, not_or] at hf
      obtain ⟨a1, a2, a3, a4, a5, a6, a7, a8, a9, a10, a11, a12, a13, a14⟩ := hf
      have three : ∀ {x y z : Prop}, ¬ x → ¬ y → ¬ z → ¬ (x ∨ y ∨ z) := fun hx hy hz h => h.elim hx fun h => h.elim hy hz
      unfold featureStep
      rw [if_neg (three a1 a2 a3), if_neg (three a4 a5 a6), if_neg (three a7 a8 a9), if_neg (three a10 a11 a12),
        if_neg (fun h => h.elim a13 a14)]
    have h2 : fs.all (featureStep b) = false := by
      rw [List.all_eq_false]
      exact ⟨f, hm, by simp [this]⟩
    unfold info
    simp only
    split
    · split
      · rfl
      · split
        · rfl
        · split
          · rfl
          · rw [if_neg (by simp [h2])]
    · rfl

/-- **C101, features (violated)**: -f succeeds for foma, xfsm and OpenFst exactly if the library does **not** have them. -/
theorem C101_feature_violated (b : Build) :
    (info b { features := ["foma".toList] } = .success ↔ b.foma = false) ∧
    (info b { features := ["xfsm".toList] } = .success ↔ b.xfsm = false) ∧
    (info b { features := ["openfst".toList] } = .success ↔ b.openfst = false) := by
  have h1 : featureStep b "foma".toList = !b.foma := rfl
  have h2 : featureStep b "xfsm".toList = !b.xfsm := rfl
  have h3 : featureStep b "openfst".toList = !b.openfst := rfl
  rw [info_feature, info_feature, info_feature, h1, h2, h3]
  cases b.foma <;> cases b.xfsm <;> cases b.openfst <;> simp

/-- **C101, great numbers (violated)**: `-e 2.10017.1` succeeds for version 3.17.1. -/
theorem C101_great_number_violated (b : Build) :
    Spells "2.10017.1".toList ⟨2, 10017, 1⟩ ∧ (⟨2, 10017, 1⟩ : Version) ≠ current ∧ info b { exact := some "2.10017.1".toList } = .success := by
  refine ⟨?_, by decide, ?_⟩
  · exact Spells.three "2".toList "10017".toList "1".toList (by unfold Digits; decide) (by unfold Digits; decide) (by unfold Digits; decide)
  · have : parseVersion "2.10017.1".toList = some 300170001 := by decide +kernel
    rw [info_exact b this, if_neg (by decide)]

/-- **C101, empty numbers (violated)**: `-a ''`, `-a .` and `-a ..` succeed, although a version has at least one digit. -/
theorem C101_empty_violated (b : Build) (v : Version) :
    (¬ Spells [] v ∧ info b { atLeast := some [] } = .success) ∧ (¬ Spells "..".toList v ∧ info b { atLeast := some "..".toList } = .success) := by
  have hp : parseVersion [] = some 0 := by decide +kernel
  have hp2 : parseVersion "..".toList = some 0 := by decide +kernel
  have hn : ∀ s v, Spells s v → ∃ c r, s = c :: r ∧ isDigit c = true := by
    intro s v h
    have head : ∀ a r, Digits a → ∃ c r', a ++ r = c :: r' ∧ isDigit c = true := by
      intro a r ha
      cases a with
      | nil => exact absurd rfl ha.1
      | cons c a => exact ⟨c, a ++ r, rfl, ha.2 c List.mem_cons_self⟩
    cases h with
    | one a ha => simpa using head s [] ha
    | two a b ha hb => exact head a _ ha
    | three a b c ha hb hc => simpa using head a ('.' :: b ++ '.' :: c) ha
  refine ⟨⟨fun h => ?_, ?_⟩, fun h => ?_, ?_⟩
  · obtain ⟨c, r, e, _⟩ := hn _ _ h; cases e
  · rw [info_atLeast b hp, if_neg (by decide)]
  · obtain ⟨c, r, e, hd⟩ := hn _ _ h
    cases e
    revert hd; decide
  · rw [info_atLeast b hp2, if_neg (by decide)]

/-! ## Cases that meet the hypotheses -/

theorem spells_example : Spells "3.16".toList ⟨3, 16, 0⟩ ∧ Spells "3.17.1".toList ⟨3, 17, 1⟩ :=
  ⟨Spells.two "3".toList "16".toList (by unfold Digits; decide) (by unfold Digits; decide),
   Spells.three "3".toList "17".toList "1".toList (by unfold Digits; decide) (by unfold Digits; decide) (by unfold Digits; decide)⟩

/-- `hfst-info -a 3.16 -e 3.17.1` succeeds. -/
example (b : Build) : info b { atLeast := some "3.16".toList, exact := some "3.17.1".toList } = .success :=
  (C101_version_partial b spells_example.1 (by unfold Version.Small; simp) spells_example.2 (by unfold Version.Small; simp)).2.2.2
    ⟨by unfold Version.NotAfter current; simp, rfl⟩

/-- `hfst-info -a 3.17b` fails, and `hfst-info -m 1.2.3.4`. -/
example (b : Build) : info b { atLeast := some "3.17b".toList } = .failure ∧ info b { max := some "1.2.3.4".toList } = .failure :=
  ⟨C101_wrong b _ "3.17b".toList (.inl ⟨'b', by decide, by decide⟩) (.inl rfl),
   C101_wrong b _ "1.2.3.4".toList (.inr (by decide)) (.inr (.inr rfl))⟩

/-- `hfst-info -f python` fails. -/
example (b : Build) : info b { features := ["python".toList] } = .failure :=
  (C101_feature_partial b).2.2 "python".toList _ (by decide) (by simp) {}

end Hfst.Info
