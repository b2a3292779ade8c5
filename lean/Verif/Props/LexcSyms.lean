import Verif.Props.LexcCut
import Verif.Props.LexcCost

/-!
# C71: the symbols that occur in the compilation
-/
namespace Hfst.Lexc
open Hfst.Basic
open Hfst.Tok (Bytes Byte Ok)

theorem byte_char (x : Byte) : UInt8.ofNat (Char.ofNat x.toNat).toNat = x := by
  have hx : x.toNat < 256 := x.toNat_lt
  have h : (Char.ofNat x.toNat).toNat = x.toNat := by
    have hv : x.toNat.isValidChar := Or.inl (by omega)
    rw [Char.ofNat, dif_pos hv]
    simp [Char.ofNatAux, Char.toNat]
  rw [h]
  simp

theorem bytes_sym (b : Bytes) : bytes (sym b) = b := by
  simp only [bytes, sym, List.map_map]
  conv_rhs => rw [← List.map_id b]
  exact List.map_congr_left fun x _ => byte_char x

theorem sym_inj {a b : Bytes} (h : sym a = sym b) : a = b := by
  rw [← bytes_sym a, ← bytes_sym b, h]

theorem sym_ne_nil {b : Bytes} : sym b ≠ [] ↔ b ≠ [] := by simp [sym]

/-- The symbols of the compiler begin with a dollar sign. -/
def Dollar (x : Sym) : Prop := ∃ t, x = '$' :: t

theorem dollar_sym (b : Bytes) : Dollar (sym b) ↔ ∃ t, b = 36 :: t := by
  constructor
  · rintro ⟨t, h⟩
    cases b with
    | nil => simp [sym] at h
    | cons x b =>
      have hx : sym [x] = sym [36] := by
        have : Char.ofNat x.toNat = '$' := by simp only [sym, List.map_cons, List.cons.injEq] at h; exact h.1
        simp only [sym, List.map_cons, List.map_nil, this]
        rfl
      have := sym_inj hx
      simp at this
      exact ⟨b, by rw [this]⟩
  · rintro ⟨t, rfl⟩
    exact ⟨sym t, rfl⟩

theorem Atom.dollar {x : Bytes} (h : Atom x) : Dollar (sym x) := by
  obtain ⟨u, _, rfl⟩ := h
  exact (dollar_sym _).mpr ⟨_, rfl⟩

theorem dollar_joiner (n : Bytes) : Dollar (sym (joiner n)) := by
  have e1 : lit "$_LEXC_JOINER." = 36 :: (lit "$_LEXC_JOINER.").drop 1 := by decide
  refine (dollar_sym _).mpr ⟨(lit "$_LEXC_JOINER.").drop 1 ++ n ++ lit "_$", ?_⟩
  unfold joiner
  rw [e1]; simp

theorem dollar_regKey (a b : Bytes) : Dollar (sym (regKey a b)) := by
  have e1 : lit "$_REG." = 36 :: (lit "$_REG.").drop 1 := by decide
  refine (dollar_sym _).mpr ⟨(lit "$_REG.").drop 1 ++ (a ++ lit "_" ++ b) ++ lit "_$", ?_⟩
  unfold regKey
  rw [e1]; simp

theorem not_dollar_epsilon : ¬ Dollar epsilon := by
  rintro ⟨t, h⟩
  exact absurd (congrArg List.head? h) (by rw [List.head?_cons]; decide)

theorem sym_epsilon : sym (lit "@_EPSILON_SYMBOL_@") = epsilon := by decide

/-- Two bytes at the beginning of a symbol. -/
theorem sym_at_prefix {b : Bytes} : sym (lit "@_") <+: sym b ↔ lit "@_" <+: b := by
  constructor
  · rintro ⟨t, h⟩
    have h := congrArg bytes h
    rw [bytes_sym] at h
    refine ⟨bytes t, ?_⟩
    rw [← h]
    have := bytes_sym (lit "@_")
    simp only [bytes, List.map_append] at this ⊢
    rw [this]
  · rintro ⟨t, rfl⟩
    exact ⟨sym t, by simp [sym]⟩

/-- What a text may contain when the small substitutions have been made. -/
def Txt (x : Sym) : Prop :=
  x = epsilon ∨ ∃ b, Plain b ∧ b ≠ [] ∧ x = sym b ∧ ¬ sym (lit "@_") <+: x ∧ ¬ sym (lit "@@ANOTHER_EPSILON@@") <+: x

/-- What a text may contain before that. -/
def Txt0 (x : Sym) : Prop := Txt x ∨ x = sym (lit "@0@") ∨ x = sym (lit "@@ANOTHER_EPSILON@@")

theorem Txt.not_dollar {x : Sym} (h : Txt x) : ¬ Dollar x := by
  rcases h with rfl | ⟨b, hb, hne, rfl, _⟩
  · exact not_dollar_epsilon
  · rw [dollar_sym]
    rintro ⟨t, rfl⟩
    exact (hb 36 (by simp)).1 rfl

theorem Txt0.not_dollar {x : Sym} (h : Txt0 x) : ¬ Dollar x := by
  rcases h with h | rfl | rfl
  · exact h.not_dollar
  · rw [dollar_sym]; rintro ⟨t, h⟩; exact absurd (congrArg List.head? h) (by rw [List.head?_cons]; decide)
  · rw [dollar_sym]; rintro ⟨t, h⟩; exact absurd (congrArg List.head? h) (by rw [List.head?_cons]; decide)

theorem Txt.byte {x : Sym} (h : Txt x) : ∃ b, Ok b ∧ b ≠ [] ∧ x = sym b := by
  rcases h with rfl | ⟨b, hb, hne, rfl, _⟩
  · exact ⟨lit "@_EPSILON_SYMBOL_@", ok_of_all (by decide), by decide, sym_epsilon.symm⟩
  · exact ⟨b, hb.ok, hne, rfl⟩

theorem special_prefix : sym (lit "@_") <+: unknown ∧ sym (lit "@_") <+: identity := by
  have h1 : (sym (lit "@_")).isPrefixOf unknown = true := by decide
  have h2 : (sym (lit "@_")).isPrefixOf identity = true := by decide
  exact ⟨List.isPrefixOf_iff_prefix.mp h1, List.isPrefixOf_iff_prefix.mp h2⟩

theorem Txt.closed {x : Sym} (h : Txt x) : x ≠ unknown ∧ x ≠ identity := by
  rcases h with rfl | ⟨b, _, _, _, h, _⟩
  · decide
  · constructor
    · intro e; rw [e] at h; exact h special_prefix.1
    · intro e; rw [e] at h; exact h special_prefix.2

theorem Dollar.closed {x : Sym} (h : Dollar x) : x ≠ unknown ∧ x ≠ identity := by
  obtain ⟨t, rfl⟩ := h
  constructor
  · intro h; exact absurd (congrArg List.head? h) (by rw [List.head?_cons]; decide)
  · intro h; exact absurd (congrArg List.head? h) (by rw [List.head?_cons]; decide)

/-! ## The small substitutions -/

theorem small_valid : ∀ e ∈ smallSubstitutions, e.1 ≠ [] ∧ e.2 ≠ [] := by decide

theorem small_epsilon : smallSubstitutions.lookup epsilon = none := by decide

theorem lookup_none {α β : Type} [DecidableEq α] [BEq α] [LawfulBEq α] {m : List (α × β)} {x : α} (h : ∀ e ∈ m, e.1 ≠ x) :
    m.lookup x = none := by
  rw [← mapGet_eq_lookup]
  unfold mapGet
  rw [List.find?_eq_none.mpr]
  · rfl
  · intro e he
    simpa using h e he

theorem small_dollar {x : Sym} (h : Dollar x) : smallSubstitutions.lookup x = none := by
  refine lookup_none ?_
  rintro e he rfl
  have : ∀ e ∈ smallSubstitutions, e.1.head? ≠ some '$' := by decide
  obtain ⟨t, ht⟩ := h
  exact this e he (by rw [ht]; rfl)

theorem small_txt {x : Sym} (h : Txt0 x) : Txt ((smallSubstitutions.lookup x).getD x) := by
  by_cases h1 : x = sym (lit "@0@")
  · subst h1; exact .inl (by decide)
  by_cases h2 : x = sym (lit "@@ANOTHER_EPSILON@@")
  · subst h2; exact .inl (by decide)
  by_cases h3 : x = sym (lit "@ZERO@")
  · subst h3
    refine .inr ⟨lit "0", ?_, by decide, by decide, by decide, by decide⟩
    intro b hb
    have := List.all_eq_true.mp (show (lit "0").all (fun b => decide (b ≠ 36) && decide (b ≠ 0) && decide (b ≠ 255)) = true by
      decide) b hb
    simpa [and_assoc] using this
  · rw [lookup_none]
    · rcases h with h | h | h
      · exact h
      · exact absurd h h1
      · exact absurd h h2
    · intro e he
      simp only [smallSubstitutions, List.mem_cons, List.not_mem_nil, or_false] at he
      rcases he with rfl | rfl | rfl
      · exact fun h => h1 h.symm
      · exact fun h => h2 h.symm
      · exact fun h => h3 h.symm

/-! ## Keys and marks -/

/-- The symbol a key is changed to. -/
def mark (a b : Bytes) : Bytes := lit "@_REG." ++ (a ++ lit "_" ++ b) ++ lit "_@"

theorem dollarToAt_id {b : Bytes} (h : (36 : Byte) ∉ b) : dollarToAt b = b := by
  unfold dollarToAt
  conv_rhs => rw [← List.map_id b]
  refine List.map_congr_left ?_
  intro x hx
  rw [if_neg]
  · rfl
  · rintro rfl; exact h hx

theorem dollarToAt_regKey {a b : Bytes} (ha : NameOk a) (hb : NameOk b) : dollarToAt (regKey a b) = mark a b := by
  have e : ∀ x y : Bytes, dollarToAt (x ++ y) = dollarToAt x ++ dollarToAt y := by simp [dollarToAt]
  unfold regKey mark
  rw [e, e, dollarToAt_id (b := a ++ lit "_" ++ b)]
  · rfl
  · simp only [List.mem_append, not_or]
    exact ⟨⟨nodollar ha, by decide⟩, nodollar hb⟩

theorem mark_prefix (a b : Bytes) : sym (lit "@_") <+: sym (mark a b) := by
  rw [sym_at_prefix]
  refine ⟨lit "REG." ++ (a ++ lit "_" ++ b) ++ lit "_@", ?_⟩
  have : lit "@_REG." = lit "@_" ++ lit "REG." := by decide
  unfold mark
  rw [this]; simp

theorem mark_key {a b a' b' : Bytes} (h : mark a b = mark a' b') : regKey a b = regKey a' b' := by
  have := append_left_cancel_lit h
  unfold regKey
  rw [this]

theorem key_mark {a b a' b' : Bytes} (h : regKey a b = regKey a' b') : mark a b = mark a' b' := by
  have := append_left_cancel_lit h
  unfold mark
  rw [this]

theorem mark_ne_special (a b : Bytes) : sym (mark a b) ≠ epsilon ∧ sym (mark a b) ≠ unknown ∧ sym (mark a b) ≠ identity := by
  have e1 : lit "@_REG." = 64 :: 95 :: 82 :: (lit "@_REG.").drop 3 := by decide
  have h : (sym (mark a b))[2]? = some 'R' := by
    unfold mark
    rw [e1]
    rfl
  refine ⟨?_, ?_, ?_⟩ <;> intro e <;> rw [e] at h <;> exact absurd h (by decide)

theorem mark_not_dollar (a b : Bytes) : ¬ Dollar (sym (mark a b)) := by
  rw [dollar_sym]
  rintro ⟨t, h⟩
  obtain ⟨u, hu⟩ := sym_at_prefix.mp (mark_prefix a b)
  rw [← hu] at h
  exact absurd (congrArg List.head? h) (by simp [lit, bytes])

theorem mark_not_txt (a b : Bytes) : ¬ Txt (sym (mark a b)) := by
  rintro (h | ⟨_, _, _, _, h, _⟩)
  · exact (mark_ne_special a b).1 h
  · exact h (mark_prefix a b)

/-! ## What is kept out of the filter -/

theorem sym_prefix {a b : Bytes} : sym a <+: sym b ↔ a <+: b := by
  constructor
  · rintro ⟨t, h⟩
    have h := congrArg bytes h
    rw [bytes_sym] at h
    refine ⟨bytes t, ?_⟩
    rw [← h]
    have := bytes_sym a
    simp only [bytes, List.map_append] at this ⊢
    rw [this]
  · rintro ⟨t, rfl⟩
    exact ⟨sym t, by simp [sym]⟩

theorem excluded_joiner (n : Bytes) : excluded (sym (joiner n)) = true := by
  have : sym (lit "$_LEXC_JOINER.") <+: sym (joiner n) := sym_prefix.mpr ⟨n ++ lit "_$", by simp [joiner]⟩
  simp [excluded, List.isPrefixOf_iff_prefix, this]

theorem excluded_epsilon : excluded epsilon = true := by decide

theorem not_excluded_txt {x : Sym} (h : Txt x) (hne : x ≠ epsilon) : excluded x = false := by
  rcases h with rfl | ⟨b, hb, hn, rfl, h1, h2⟩
  · exact absurd rfl hne
  · have hd : ¬ Dollar (sym b) := Txt.not_dollar (.inr ⟨b, hb, hn, rfl, h1, h2⟩)
    have key : ∀ s : Bytes, s.head? = some 36 → ¬ sym s <+: sym b := by
      intro s hs hp
      refine hd ?_
      obtain ⟨t, ht⟩ := hp
      cases s with
      | nil => cases hs
      | cons c s =>
        simp at hs
        subst hs
        rw [← ht]
        exact ⟨sym s ++ t, rfl⟩
    simp only [excluded, List.any_cons, List.any_nil, Bool.or_false, Bool.or_eq_false_iff]
    refine ⟨?_, ?_, ?_, ?_, ?_⟩ <;> rw [Bool.eq_false_iff, ne_eq, List.isPrefixOf_iff_prefix]
    · exact h2
    · exact key _ (by decide)
    · exact h1
    · exact key _ (by decide)
    · exact key _ (by decide)

theorem not_excluded_key (a b : Bytes) : excluded (sym (regKey a b)) = false := by
  have key : ∀ s : Bytes, 3 ≤ s.length → s[0]? ≠ some 36 ∨ s[1]? ≠ some 95 ∨ s[2]? ≠ some 82 → ¬ sym s <+: sym (regKey a b) := by
    intro s hl hs hp
    obtain ⟨t, ht⟩ := sym_prefix.mp hp
    have e1 : lit "$_REG." = 36 :: 95 :: 82 :: (lit "$_REG.").drop 3 := by decide
    unfold regKey at ht
    rw [e1] at ht
    match s, hl with
    | x :: y :: z :: s, _ => simp at ht hs; grind
  have k2 : ¬ sym (lit "@_") <+: sym (regKey a b) := by
    intro hp
    obtain ⟨t, ht⟩ := sym_prefix.mp hp
    have e1 : lit "$_REG." = 36 :: 95 :: 82 :: (lit "$_REG.").drop 3 := by decide
    unfold regKey at ht
    rw [e1] at ht
    exact absurd (congrArg List.head? ht) (by simp [lit, bytes])
  simp only [excluded, List.any_cons, List.any_nil, Bool.or_false, Bool.or_eq_false_iff]
  refine ⟨?_, ?_, ?_, ?_, ?_⟩ <;> rw [Bool.eq_false_iff, ne_eq, List.isPrefixOf_iff_prefix]
  · exact key _ (by decide) (by decide)
  · exact key _ (by decide) (by decide)
  · exact k2
  · exact key _ (by decide) (by decide)
  · exact key _ (by decide) (by decide)

end Hfst.Lexc
