import Verif.Model.Utf8
import Verif.Props.Tokenizer

/-!
# C51, C52: UTF-8 sizes and conversions
-/
namespace Hfst.Utf8
open Hfst.Tok

theorem nByteUtf8_table : ∀ n : Fin 256, nByteUtf8 (UInt8.ofNat n.val) =
    if n.val < 128 then 1 else if n.val < 192 then 0 else if n.val < 224 then 2
    else if n.val < 240 then 3 else 4 := by
  decide +kernel

theorem nByteUtf8_ofNat {n : Nat} (h : n < 256) : nByteUtf8 (UInt8.ofNat n) =
    if n < 128 then 1 else if n < 192 then 0 else if n < 224 then 2 else if n < 240 then 3 else 4 :=
  nByteUtf8_table ⟨n, h⟩

/-- C51 for one character: both size functions read off the first byte the number of bytes of the character,
whatever follows. -/
theorem C51_sizes (c : Char) :
    ∃ b bs, String.utf8EncodeChar c = b :: bs ∧
      nByteUtf8 b = (String.utf8EncodeChar c).length ∧ utf8Size b = (String.utf8EncodeChar c).length := by
  have hv : c.val.toNat < 0x110000 := by
    rcases c.valid with h | h
    · exact Nat.lt_trans h (by decide)
    · exact h.2
  obtain ⟨b, bs, hb, hsz⟩ := utf8EncodeChar_head c
  refine ⟨b, bs, hb, ?_, hsz⟩
  revert hb
  fun_cases String.utf8EncodeChar c <;> intro hb <;> simp only [List.cons.injEq] at hb <;>
    obtain ⟨rfl, _⟩ := hb
  · rename_i v h _
    rw [nByteUtf8_ofNat (by omega), if_pos (by omega)]; rfl
  · rename_i v h1 h2 _
    rw [nByteUtf8_ofNat (by omega), if_neg (by omega), if_neg (by omega), if_pos (by omega)]; rfl
  · rename_i v h1 h2 h3 _
    rw [nByteUtf8_ofNat (by omega), if_neg (by omega), if_neg (by omega), if_neg (by omega),
      if_pos (by omega)]; rfl
  · rename_i v h1 h2 h3 _
    rw [nByteUtf8_ofNat (by omega), if_neg (by omega), if_neg (by omega), if_neg (by omega),
      if_neg (by omega)]; rfl

/-- C51: splitting a UTF-8 text with these sizes gives exactly its characters. -/
theorem C51_split (text : List Char) :
    stringToUtf8 (utf8 text) = .parts (text.map String.utf8EncodeChar) := by
  induction text with
  | nil => rw [utf8, List.flatMap_nil, stringToUtf8]; rfl
  | cons c text ih =>
    obtain ⟨b, bs, hb, hsz, _⟩ := C51_sizes c
    have e : utf8 (c :: text) = b :: (bs ++ utf8 text) := by simp [utf8, hb]
    rw [hb] at hsz
    simp only [List.length_cons] at hsz
    rw [e, stringToUtf8]
    simp only [hsz]
    have h1 : ¬ (bs ++ utf8 text).length < bs.length := by simp
    simp only [h1, if_false, List.drop_left, List.take_left, ih, List.map_cons, hb]

/-- C51 for the tokenizer: with no registered symbols, splitting into characters gives exactly the characters
of the text. -/
theorem C51_tokenizer (grapheme : Bytes → Nat) (text : List Char) (ht : Char.ofNat 0 ∉ text) :
    Tokenizer.empty.tokenize grapheme true (utf8 text) = .tokens (text.map String.utf8EncodeChar) := by
  obtain ⟨t, pieces, h1, h2, h3, h4, h5⟩ := C06_tokenize_split [] grapheme (by simp) text ht
  simp only [Tokenizer.register, Option.some.injEq] at h1
  subst h1
  rw [h5]
  have hc : Cut (regSyms []) (fun s => match s with | [] => 0 | b :: _ => utf8Size b) (utf8 text)
      (text.map String.utf8EncodeChar) := by
    clear h2 h3 h4 h5 ht
    induction text with
    | nil => exact .nil
    | cons c text ih =>
      obtain ⟨b, bs, hb, _, hsz⟩ := C51_sizes c
      have e : utf8 (c :: text) = String.utf8EncodeChar c ++ utf8 text := by simp [utf8]
      rw [e, List.map_cons]
      refine .char (by rw [hb]; simp) (by simp [regSyms]) ?_ ih
      rw [← hsz, hb]; rfl
  rw [← Cut.unique hc h4]
  simp [regSkips]

example : stringToUtf8 (utf8 ['a', 'é', '€', '😀']) =
    .parts [[97], [0xC3, 0xA9], [0xE2, 0x82, 0xAC], [0xF0, 0x9F, 0x98, 0x80]] := by
  rw [C51_split]; decide

/-! ## C52 -/

theorem or_add_table : ∀ n : Fin 64, (n.val ||| 128) = n.val + 128 ∧ (n.val ||| 192 = if n.val < 32 then n.val + 192 else n.val ||| 192)
    ∧ (n.val ||| 224 = if n.val < 16 then n.val + 224 else n.val ||| 224)
    ∧ (n.val ||| 240 = if n.val < 8 then n.val + 240 else n.val ||| 240) := by
  decide +kernel

/-- C52: `int2utf8` gives the standard encoding of every character. -/
theorem C52_int2utf8 (c : Char) : int2utf8 c.val.toNat = some (String.utf8EncodeChar c) := by
  have hv : c.val.toNat < 0x110000 := by
    rcases c.valid with h | h
    · exact Nat.lt_trans h (by decide)
    · exact h.2
  have o128 : ∀ n, n < 64 → n ||| 128 = n + 128 := fun n h => (or_add_table ⟨n, h⟩).1
  have o192 : ∀ n, n < 32 → n ||| 192 = n + 192 := fun n h => by
    have := (or_add_table ⟨n, by omega⟩).2.1; simpa [h] using this
  have o224 : ∀ n, n < 16 → n ||| 224 = n + 224 := fun n h => by
    have := (or_add_table ⟨n, by omega⟩).2.2.1; simpa [h] using this
  have o240 : ∀ n, n < 8 → n ||| 240 = n + 240 := fun n h => by
    have := (or_add_table ⟨n, by omega⟩).2.2.2; simpa [h] using this
  have a63 : ∀ n : Nat, n &&& 63 = n % 64 := fun n => Nat.and_two_pow_sub_one_eq_mod n 6
  unfold int2utf8
  fun_cases String.utf8EncodeChar c
  · rename_i v h
    rw [if_pos (by simp only [v] at h; omega)]
  · rename_i v h1 h2
    simp only [v] at *
    rw [if_neg (by omega), if_pos (by omega)]
    simp only [a63, Nat.shiftRight_eq_div_pow]
    rw [o192 _ (by omega), o128 _ (by omega), Nat.mod_eq_of_lt (a := c.val.toNat / 64) (by omega)]
  · rename_i v h1 h2 h3
    simp only [v] at *
    rw [if_neg (by omega), if_neg (by omega), if_pos (by omega)]
    simp only [a63, Nat.shiftRight_eq_div_pow]
    rw [o224 _ (by omega), o128 _ (by omega), o128 _ (by omega),
      Nat.mod_eq_of_lt (a := c.val.toNat / 4096) (by omega)]
  · rename_i v h1 h2 h3
    simp only [v] at *
    rw [if_neg (by omega), if_neg (by omega), if_neg (by omega), if_pos (by omega)]
    simp only [a63, Nat.shiftRight_eq_div_pow]
    rw [o240 _ (by omega), o128 _ (by omega), o128 _ (by omega), o128 _ (by omega),
      Nat.mod_eq_of_lt (a := c.val.toNat / 262144) (by omega)]

/-- C52: `codepoint_to_utf8` gives the standard encoding of every character. -/
theorem C52_codepointToUtf8 (c : Char) : codepointToUtf8 c.val.toNat = some (String.utf8EncodeChar c) := by
  have hv : c.val.toNat < 0xD800 ∨ (0xDFFF < c.val.toNat ∧ c.val.toNat < 0x110000) := c.valid
  unfold codepointToUtf8
  fun_cases String.utf8EncodeChar c
  · rename_i v h
    rw [if_pos (by simp only [v] at h; omega)]
  · rename_i v h1 h2
    simp only [v] at *
    rw [if_neg (by omega), if_pos (by omega)]
    rw [Nat.mod_eq_of_lt (a := c.val.toNat / 64) (by omega)]
    simp only [Nat.add_comm]
  · rename_i v h1 h2 h3
    simp only [v] at *
    rw [if_neg (by omega), if_neg (by omega), if_neg (by omega), if_pos (by omega)]
    rw [Nat.mod_eq_of_lt (a := c.val.toNat / 4096) (by omega)]
    simp only [Nat.add_comm]
  · rename_i v h1 h2 h3
    simp only [v] at *
    rw [if_neg (by omega), if_neg (by omega), if_neg (by omega), if_neg (by omega), if_pos (by omega)]
    rw [Nat.mod_eq_of_lt (a := c.val.toNat / 262144) (by omega)]
    simp only [Nat.add_comm]

/-- C52: numbers that are no characters (surrogates, too large) are refused by `codepoint_to_utf8`. -/
theorem C52_codepoint_refused (cp : Nat) (h32 : cp < 2 ^ 32)
    (h : ¬ (cp < 0xD800 ∨ (0xDFFF < cp ∧ cp < 0x110000))) : codepointToUtf8 cp = none := by
  unfold codepointToUtf8
  rw [if_neg (by omega), if_neg (by omega)]
  split
  · rfl
  · rw [if_neg (by omega), if_neg (by omega)]

/-- C52: reading back what `int2utf8` wrote gives the number and leaves the rest of the text. -/
theorem C52_roundtrip (n : Nat) (hn : n < 2097152) (bytes rest : Bytes) (h : int2utf8 n = some bytes) :
    utf8toint (bytes ++ rest) = some (n, rest) := by
  have o128 : ∀ n, n < 64 → n ||| 128 = n + 128 := fun n h => (or_add_table ⟨n, h⟩).1
  have o192 : ∀ n, n < 32 → n ||| 192 = n + 192 := fun n h => by
    have := (or_add_table ⟨n, by omega⟩).2.1; simpa [h] using this
  have o224 : ∀ n, n < 16 → n ||| 224 = n + 224 := fun n h => by
    have := (or_add_table ⟨n, by omega⟩).2.2.1; simpa [h] using this
  have o240 : ∀ n, n < 8 → n ||| 240 = n + 240 := fun n h => by
    have := (or_add_table ⟨n, by omega⟩).2.2.2; simpa [h] using this
  have a63 : ∀ n : Nat, n &&& 63 = n % 64 := fun n => Nat.and_two_pow_sub_one_eq_mod n 6
  have a31 : ∀ n : Nat, n &&& 31 = n % 32 := fun n => Nat.and_two_pow_sub_one_eq_mod n 5
  have a15 : ∀ n : Nat, n &&& 15 = n % 16 := fun n => Nat.and_two_pow_sub_one_eq_mod n 4
  have a7 : ∀ n : Nat, n &&& 7 = n % 8 := fun n => Nat.and_two_pow_sub_one_eq_mod n 3
  have sh : ∀ a b : Nat, b < 64 → (a <<< 6) ||| b = a * 64 + b := by
    intro a b hb
    rw [← Nat.shiftLeft_add_eq_or_of_lt (i := 6) (by omega), Nat.shiftLeft_eq]
  have cont : ∀ k r m s, m < 64 → contBytes (k + 1) r (UInt8.ofNat (m + 128) :: s) =
      contBytes k (r * 64 + m) s := by
    intro k r m s hm
    have h1 : UInt8.ofNat (m + 128) < 192 ∧ UInt8.ofNat (m + 128) ≥ 128 := by
      constructor
      · rw [UInt8.lt_iff_toNat_lt]; simp; omega
      · rw [ge_iff_le, UInt8.le_iff_toNat_le]; simp; omega
    simp only [contBytes, h1, and_self, if_true]
    congr 1
    have : (UInt8.ofNat (m + 128) &&& 63).toNat = m := by
      simp [a63]; omega
    rw [this, sh _ _ hm]
  unfold int2utf8 at h
  split at h
  · rename_i h1
    simp at h; subst h
    have e : (UInt8.ofNat n).toNat = n := by simp; omega
    simp only [List.cons_append, List.nil_append, utf8toint]
    rw [if_neg (by rw [ge_iff_le, UInt8.le_iff_toNat_le, e]; simp; omega),
      if_neg (by rw [ge_iff_le, UInt8.le_iff_toNat_le, e]; simp; omega),
      if_neg (by rw [ge_iff_le, UInt8.le_iff_toNat_le, e]; simp; omega),
      if_pos (by rw [UInt8.lt_iff_toNat_lt, e]; simp; omega), e]
  · split at h
    · rename_i h1 h2
      simp only [a63, Nat.shiftRight_eq_div_pow, Option.some.injEq] at h
      rw [o192 _ (by omega), o128 _ (by omega)] at h
      subst h
      have e : (UInt8.ofNat (n / 2 ^ 6 + 192)).toNat = n / 64 + 192 := by simp; omega
      simp only [List.cons_append, List.nil_append, utf8toint]
      rw [if_neg (by rw [ge_iff_le, UInt8.le_iff_toNat_le, e]; simp; omega),
        if_neg (by rw [ge_iff_le, UInt8.le_iff_toNat_le, e]; simp; omega),
        if_pos (by rw [ge_iff_le, UInt8.le_iff_toNat_le, e]; simp), cont _ _ _ _ (by omega)]
      simp only [contBytes]
      have : (UInt8.ofNat (n / 2 ^ 6 + 192) &&& 31).toNat = n / 64 := by
        rw [UInt8.toNat_and, e]; simp [a31]; omega
      rw [this]
      congr 2; omega
    · split at h
      · rename_i h1 h2 h3
        simp only [a63, Nat.shiftRight_eq_div_pow, Option.some.injEq] at h
        rw [o224 _ (by omega), o128 _ (by omega), o128 _ (by omega)] at h
        subst h
        have e : (UInt8.ofNat (n / 2 ^ 12 + 224)).toNat = n / 4096 + 224 := by simp; omega
        simp only [List.cons_append, List.nil_append, utf8toint]
        rw [if_neg (by rw [ge_iff_le, UInt8.le_iff_toNat_le, e]; simp; omega),
          if_pos (by rw [ge_iff_le, UInt8.le_iff_toNat_le, e]; simp), cont _ _ _ _ (by omega),
          cont _ _ _ _ (by omega)]
        simp only [contBytes]
        have : (UInt8.ofNat (n / 2 ^ 12 + 224) &&& 15).toNat = n / 4096 := by
          rw [UInt8.toNat_and, e]; simp [a15]; omega
        rw [this]
        congr 2; omega
      · rename_i h1 h2 h3
        simp only [a63, Nat.shiftRight_eq_div_pow, Option.some.injEq] at h
        rw [o240 _ (by omega), o128 _ (by omega), o128 _ (by omega), o128 _ (by omega)] at h
        subst h
        have e : (UInt8.ofNat (n / 2 ^ 18 + 240)).toNat = n / 262144 + 240 := by simp; omega
        simp only [List.cons_append, List.nil_append, utf8toint]
        rw [if_pos (by rw [ge_iff_le, UInt8.le_iff_toNat_le, e]; simp), cont _ _ _ _ (by omega),
          cont _ _ _ _ (by omega), cont _ _ _ _ (by omega)]
        simp only [contBytes]
        have : (UInt8.ofNat (n / 2 ^ 18 + 240) &&& 7).toNat = n / 262144 := by
          rw [UInt8.toNat_and, e]; simp [a7]; omega
        rw [this]
        congr 2; omega

example : int2utf8 0x20AC = some [0xE2, 0x82, 0xAC] := by decide

end Hfst.Utf8
