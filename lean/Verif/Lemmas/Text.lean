import Verif.Model.Text

/-! # Lemmas about the text helpers -/
namespace Hfst.Text
open Hfst.StdString Hfst.Basic

theorem replaceGo_skip (n r : Str) : ∀ (b s : Str), replaceGo n r b.length (b ++ s) = replaceGo n r 0 s
  | [], s => rfl
  | c :: b, s => by
    show replaceGo n r (b.length + 1) (c :: (b ++ s)) = _
    rw [replaceGo]; exact replaceGo_skip n r b s

theorem replaceGo_match {n : Str} (hn : n ≠ []) (r s : Str) :
    replaceGo n r 0 (n ++ s) = r ++ replaceGo n r 0 s := by
  cases n with
  | nil => exact absurd rfl hn
  | cons c n =>
    rw [List.cons_append, replaceGo, if_pos ⟨hn, by rw [← List.cons_append]; simp⟩]
    rw [show (c :: n).length - 1 = n.length from rfl, replaceGo_skip]

theorem replaceGo_step {n : Str} (r : Str) {c : Char} {s : Str} (h : ¬ n <+: c :: s) :
    replaceGo n r 0 (c :: s) = c :: replaceGo n r 0 s := by
  rw [replaceGo, if_neg]
  rintro ⟨_, h'⟩
  exact h (List.isPrefixOf_iff_prefix.mp h')

theorem replaceGo_block {n : Str} (r : Str) : ∀ (b s : Str),
    (∀ b', b' ≠ [] → b' <:+ b → ¬ n <+: b' ++ s) → replaceGo n r 0 (b ++ s) = b ++ replaceGo n r 0 s
  | [], _, _ => rfl
  | c :: b, s, h => by
    have h0 : ¬ n <+: c :: (b ++ s) := h (c :: b) (by simp) (List.suffix_refl _)
    rw [List.cons_append, replaceGo_step r h0, replaceGo_block r b s fun b' h1 h2 => h b' h1 (h2.trans (List.suffix_cons c b)), List.cons_append]

theorem replaceGo_none {n : Str} (r : Str) : ∀ s : Str, ¬ n <:+: s → replaceGo n r 0 s = s
  | [], _ => by rw [replaceGo]
  | c :: s, h => by
    rw [replaceGo_step r fun h' => h h'.isInfix,
      replaceGo_none r s fun h' => h (h'.trans (List.suffix_cons c s).isInfix)]

theorem replaceAll_none {s n r : Str} (h : ¬ n <:+: s) : replaceAll s n r = s := replaceGo_none r s h

theorem replaceAll_char (s : Str) (c : Char) (r : Str) :
    replaceAll s [c] r = s.flatMap fun d => if d = c then r else [d] := by
  unfold replaceAll
  induction s with
  | nil => rfl
  | cons d s ih =>
    rw [List.flatMap_cons]
    by_cases h : d = c
    · subst h
      rw [if_pos rfl, ← ih]
      exact replaceGo_match (n := [d]) (by simp) r s
    · rw [if_neg h, replaceGo_step, ih]; · rfl
      intro h'
      rw [List.cons_prefix_cons] at h'
      exact h h'.1.symm

/-- A prefix without `@` followed by `@` in an encoded text comes from the same characters in the plain text. -/
theorem prefix_of_encoded {f : Char → Str} (hf : ∀ c, f c = [c] ∨ ∃ t, f c = '@' :: t) : ∀ (p x : Str),
    '@' ∉ p → '@' ∉ x → p ++ ['@'] <+: x.flatMap f → ∃ d x', x = p ++ d :: x' ∧ f d ≠ [d]
  | [], x, _, hx, h => by
    cases x with
    | nil => simp at h
    | cons d x =>
      refine ⟨d, x, rfl, fun hd => ?_⟩
      rw [List.flatMap_cons, hd, List.nil_append, List.cons_append, List.cons_prefix_cons] at h
      exact hx (by rw [← h.1]; simp)
  | c :: p, x, hp, hx, h => by
    cases x with
    | nil => simp at h
    | cons d x =>
      rw [List.flatMap_cons] at h
      rcases hf d with hd | ⟨t, hd⟩
      · rw [hd, List.cons_append, List.cons_append, List.cons_prefix_cons, List.nil_append] at h
        obtain ⟨rfl, h⟩ := h
        obtain ⟨e, x', rfl, he⟩ := prefix_of_encoded hf p x (fun h => hp (by simp [h])) (fun h => hx (by simp [h])) h
        exact ⟨e, x', rfl, he⟩
      · rw [hd, List.cons_append, List.cons_append, List.cons_prefix_cons] at h
        exact absurd (by rw [h.1]; simp) hp

/-! ## Numbers -/

theorem digitChar_toNat {d : Nat} (h : d < 10) : (digitChar d).toNat = 48 + d := by
  have : d = 0 ∨ d = 1 ∨ d = 2 ∨ d = 3 ∨ d = 4 ∨ d = 5 ∨ d = 6 ∨ d = 7 ∨ d = 8 ∨ d = 9 := by omega
  rcases this with rfl | rfl | rfl | rfl | rfl | rfl | rfl | rfl | rfl | rfl <;> decide

theorem isDigit_digitChar {d : Nat} (h : d < 10) : isDigit (digitChar d) = true := by
  have : d = 0 ∨ d = 1 ∨ d = 2 ∨ d = 3 ∨ d = 4 ∨ d = 5 ∨ d = 6 ∨ d = 7 ∨ d = 8 ∨ d = 9 := by omega
  rcases this with rfl | rfl | rfl | rfl | rfl | rfl | rfl | rfl | rfl | rfl <;> decide

theorem natTextGo_digits : ∀ (f n : Nat), ∀ c ∈ natTextGo f n, isDigit c = true
  | 0, _, c, h => by simp [natTextGo] at h
  | f + 1, n, c, h => by
    rw [natTextGo] at h
    split at h
    · rename_i hn
      rw [List.mem_singleton] at h; subst h; exact isDigit_digitChar hn
    · rw [List.mem_append, List.mem_singleton] at h
      rcases h with h | rfl
      · exact natTextGo_digits f _ c h
      · exact isDigit_digitChar (Nat.mod_lt _ (by omega))

theorem natText_digits (n : Nat) : ∀ c ∈ natText n, isDigit c = true := natTextGo_digits _ _

theorem digitsValue_natTextGo : ∀ (f n : Nat), n < f → digitsValue (natTextGo f n) = n
  | 0, _, h => absurd h (by omega)
  | f + 1, n, h => by
    rw [natTextGo]
    split
    · rename_i hn
      simp only [digitsValue, List.foldl_cons, List.foldl_nil, digitChar_toNat hn]; omega
    · rename_i hn
      have ih := digitsValue_natTextGo f (n / 10) (by omega)
      unfold digitsValue at ih ⊢
      rw [List.foldl_append, ih]
      simp only [List.foldl_cons, List.foldl_nil, digitChar_toNat (Nat.mod_lt n (by omega : 10 > 0))]; omega

theorem natText_ne_nil (n : Nat) : natText n ≠ [] := by
  unfold natText; rw [natTextGo]; split <;> simp

theorem not_space_of_digit {c : Char} (h : isDigit c = true) : isSpace c = false := by
  unfold isDigit at h
  rw [Bool.and_eq_true, decide_eq_true_eq, decide_eq_true_eq] at h
  rw [← Bool.not_eq_true]
  intro h'
  simp only [isSpace, Bool.or_eq_true, decide_eq_true_eq] at h'
  rcases h' with ((((rfl | rfl) | rfl) | rfl) | rfl) | rfl <;> exact absurd h.1 (by decide)

theorem takeWhile_eq_self {p : Char → Bool} : ∀ {s : Str}, (∀ c ∈ s, p c = true) → s.takeWhile p = s
  | [], _ => rfl
  | c :: s, h => by
    rw [List.takeWhile_cons, if_pos (h c (by simp)), takeWhile_eq_self fun d hd => h d (by simp [hd])]

theorem atoi_natText {n : Nat} (h : n < 2 ^ 31) : atoi (natText n) = some n := by
  have hd := natText_digits n
  have hv : digitsValue (natText n) = n := digitsValue_natTextGo _ _ (by omega)
  cases ht : natText n with
  | nil => exact absurd ht (natText_ne_nil n)
  | cons c s =>
    rw [ht] at hd hv
    have hc := hd c (by simp)
    unfold atoi
    rw [List.dropWhile_cons, if_neg (by rw [not_space_of_digit hc]; simp)]
    split
    · rename_i heq; cases heq; exact absurd hc (by decide)
    · rename_i heq; cases heq; exact absurd hc (by decide)
    · simp only [takeWhile_eq_self hd, hv, if_pos h]

/-! ## Fields and lines -/

theorem scanFields_space {n : Nat} {c : Char} (s : Str) (h : isSpace c = true) :
    scanFields n (c :: s) = scanFields n s := by
  cases n with
  | zero => rfl
  | succ n => rw [scanFields, scanFields, List.dropWhile_cons, if_pos h]

theorem scanFields_nil (n : Nat) : scanFields n [] = [] := by cases n <;> rfl

theorem scanFields_field {n : Nat} {f : Str} {c : Char} (s : Str) (hf : f ≠ []) (hs : ∀ d ∈ f, isSpace d = false)
    (hc : isSpace c = true) : scanFields (n + 1) (f ++ c :: s) = f :: scanFields n s := by
  have hs' : ∀ d ∈ f, (!isSpace d) = true := fun d hd => by simp [hs d hd]
  have hdrop : (f ++ c :: s).dropWhile (fun d => !isSpace d) = c :: s := by
    rw [List.dropWhile_append_of_pos hs', List.dropWhile_cons, if_neg (by simp [hc])]
  have htake : (f ++ c :: s).takeWhile (fun d => !isSpace d) = f := by
    rw [List.takeWhile_append_of_pos hs', List.takeWhile_cons, if_neg (by simp [hc]), List.append_nil]
  cases f with
  | nil => exact absurd rfl hf
  | cons e f =>
    have he := hs e (by simp)
    rw [List.cons_append] at hdrop htake ⊢
    rw [scanFields, List.dropWhile_cons, if_neg (by simp [he])]
    simp only []
    rw [hdrop, htake, scanFields_space _ hc]

theorem takeLine_line : ∀ (n : Nat) (l s : Str), '\n' ∉ l → l.length < n →
    takeLine n (l ++ '\n' :: s) = (l ++ ['\n'], s, false)
  | 0, _, _, _, h => absurd h (by omega)
  | n + 1, [], s, _, _ => by rw [List.nil_append, takeLine, if_pos rfl]; rfl
  | n + 1, c :: l, s, hl, h => by
    rw [List.cons_append, takeLine, if_neg fun e => hl (by rw [e]; simp),
      takeLine_line n l s (fun h' => hl (by simp [h'])) (by simpa using h)]
    rfl

theorem fgets_line {size : Nat} {l s : Str} {e : Bool} (h : '\n' ∉ l) (hl : l.length + 1 < size) :
    fgets size ⟨l ++ '\n' :: s, e⟩ = (some (l ++ ['\n']), ⟨s, e⟩) := by
  unfold fgets
  have ht := takeLine_line (size - 1) l s h (by omega)
  cases l with
  | nil => simp only [List.nil_append] at ht ⊢; rw [ht]; simp
  | cons c l => simp only [List.cons_append] at ht ⊢; rw [ht]; simp

end Hfst.Text
