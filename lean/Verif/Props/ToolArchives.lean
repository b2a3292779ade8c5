import Verif.Spec.ToolStreams
import Mathlib.Tactic.Ring

/-!
# C91, archives: what hfst-head, hfst-tail and hfst-split write
-/
namespace Hfst.Tools

theorem readDigits_digits : ∀ (ds : List Char) (acc : Nat), (∀ c ∈ ds, c.isDigit = true) →
    readDigits acc ds = (acc * 10 ^ ds.length + value ds, [])
  | [], acc, _ => by simp [readDigits, value]
  | c :: cs, acc, h => by
    have hc := h c (by simp)
    simp only [readDigits, hc, if_true]
    rw [readDigits_digits cs _ (fun d hd => h d (by simp [hd]))]
    simp only [value, List.length_cons, Prod.mk.injEq, and_true]
    ring

theorem isDigit_not_space {c : Char} (h : c.isDigit = true) : isSpace c = false := by
  simp only [Char.isDigit, Bool.and_eq_true, decide_eq_true_eq] at h
  cases hs : isSpace c with
  | false => rfl
  | true =>
    simp only [isSpace, Bool.or_eq_true, beq_iff_eq] at hs
    rcases hs with ((((rfl | rfl) | rfl) | rfl) | rfl) | rfl <;> revert h <;> decide

theorem readSign_digit {c : Char} {cs : List Char} (h : c.isDigit = true) : readSign (c :: cs) = (false, c :: cs) := by
  unfold readSign
  split
  · rename_i h'; cases h'; exact absurd h (by decide)
  · rename_i h'; cases h'; exact absurd h (by decide)
  · rfl

theorem strtol_digits {ds : List Char} (h : Digits ds) : strtol ds = (clamp (value ds), []) := by
  obtain ⟨hne, hd⟩ := h
  cases ds with
  | nil => exact absurd rfl hne
  | cons c cs =>
    have hc := hd c (by simp)
    have := readDigits_digits (c :: cs) 0 hd
    simp [strtol, List.dropWhile, isDigit_not_space hc, readSign_digit hc, hc, this]

theorem strtol_plus {ds : List Char} (h : Digits ds) : strtol ('+' :: ds) = (clamp (value ds), []) := by
  obtain ⟨hne, hd⟩ := h
  cases ds with
  | nil => exact absurd rfl hne
  | cons c cs =>
    have hc := hd c (by simp)
    have := readDigits_digits (c :: cs) 0 hd
    have h0 : isSpace '+' = false := by decide
    simp [strtol, List.dropWhile, h0, readSign, hc, this]

theorem strtol_minus {ds : List Char} (h : Digits ds) : strtol ('-' :: ds) = (clamp (-(value ds : Int)), []) := by
  obtain ⟨hne, hd⟩ := h
  cases ds with
  | nil => exact absurd rfl hne
  | cons c cs =>
    have hc := hd c (by simp)
    have := readDigits_digits (c :: cs) 0 hd
    have h0 : isSpace '-' = false := by decide
    simp [strtol, List.dropWhile, h0, readSign, hc, this]

theorem digits_head {ds : List Char} (h : Digits ds) : ds.head? ≠ some '+' := by
  obtain ⟨hne, hd⟩ := h
  cases ds with
  | nil => exact absurd rfl hne
  | cons c cs =>
    have hc := hd c (by simp)
    intro h; simp at h; subst h; revert hc; decide

theorem headLoop_eq {α : Type} (k : Int) : ∀ (xs : List α) (n : Nat), headLoop k n xs = xs.take (k - n).toNat
  | [], n => by simp [headLoop]
  | x :: xs, n => by
    simp only [headLoop]
    split
    · rename_i h
      rw [headLoop_eq k xs (n + 1)]
      obtain ⟨m, hm⟩ : ∃ m, (k - (n : Int)).toNat = m + 1 := ⟨(k - (n : Int)).toNat - 1, by omega⟩
      rw [hm, List.take_succ_cons]
      congr 2; omega
    · rename_i h
      have : (k - (n : Int)).toNat = 0 := by omega
      rw [this]; rfl

theorem lastLoop_eq {α : Type} (k : Nat) (hk : 0 < k) : ∀ (xs q : List α), q.length ≤ k →
    lastLoop (k : Int) q xs = (q ++ xs).drop ((q ++ xs).length - k)
  | [], q, h => by
    have : q.length - k = 0 := by omega
    simp [lastLoop, this]
  | x :: xs, q, h => by
    simp only [lastLoop]
    split
    · rename_i hl
      have hq : q.length = k := by simp at hl; omega
      have h1 : ((q ++ [x]).drop 1).length ≤ k := by simp; omega
      rw [lastLoop_eq k hk xs _ h1]
      cases q with
      | nil => simp at hq; omega
      | cons y ys =>
        simp only [List.cons_append, List.drop_succ_cons, List.drop_zero, List.append_assoc, List.nil_append]
        have e : (y :: (ys ++ x :: xs)).length - k = ((ys ++ x :: xs).length - k) + 1 := by
          simp at hq ⊢; omega
        rw [e, List.drop_succ_cons]
    · rename_i hl
      have h1 : (q ++ [x]).length ≤ k := by simp at hl ⊢; omega
      rw [lastLoop_eq k hk xs _ h1]
      simp

theorem skipLoop_eq {α : Type} (m : Nat) : ∀ (xs : List α) (n : Nat),
    skipLoop (m : Int) n xs = xs.drop (m - 1 - n)
  | [], n => by simp [skipLoop]
  | x :: xs, n => by
    simp only [skipLoop]
    split
    · rename_i h
      have e : m - 1 - n = 0 := by omega
      rw [skipLoop_eq m xs (n + 1), e]
      have e' : m - 1 - (n + 1) = 0 := by omega
      rw [e']; rfl
    · rename_i h
      obtain ⟨j, hj⟩ : ∃ j, m - 1 - n = j + 1 := ⟨m - 1 - n - 1, by omega⟩
      rw [skipLoop_eq m xs (n + 1), hj, List.drop_succ_cons]
      congr 1; omega

theorem popLoop_eq {α : Type} (m : Nat) (hm : m < 2 ^ 32) : ∀ (d : Nat) (i : UInt32) (q : List α) (fuel : Nat),
    i.toNat + d = m → d < fuel → popLoop (m : Int) fuel i q = some (q.take (q.length - d))
  | 0, i, q, 0, _, hf => by omega
  | 0, i, q, fuel + 1, h, _ => by
    have : ¬ ((i.toNat : Int) < m) := by omega
    simp [popLoop, this]
  | d + 1, i, q, 0, _, hf => by omega
  | d + 1, i, q, fuel + 1, h, hf => by
    have h1 : ((i.toNat : Int) < m) := by omega
    have hi : (i + 1).toNat = i.toNat + 1 := by
      rw [UInt32.toNat_add]; simp; omega
    simp only [popLoop, h1, if_true]
    rw [popLoop_eq m hm d (i + 1) _ fuel (by omega) (by omega)]
    simp only [List.dropLast_eq_take, List.take_take, List.length_take]
    congr 2; omega

theorem popLoop_endless {α : Type} (m : Int) (hm : 2 ^ 32 ≤ m) : ∀ (fuel : Nat) (i : UInt32) (q : List α),
    popLoop m fuel i q = none
  | 0, _, _ => rfl
  | fuel + 1, i, q => by
    have := i.toNat_lt
    have h1 : ((i.toNat : Int) < m) := by omega
    simp only [popLoop, h1, if_true]
    exact popLoop_endless m hm fuel _ _

/-- **C91, hfst-head -n K.**  Whatever the archive and whatever the number (leading zeros and numbers greater than the
archive included), hfst-head writes the first K transducers in their order, and it succeeds.  A plus sign makes no
difference. -/
theorem C91_head {α : Type} (fuel : Nat) (ds : List Char) (hd : Digits ds) (xs : List α)
    (hx : xs.length < 2 ^ 63) :
    headMain fuel (some ds) xs = ⟨xs.take (value ds), .success⟩ ∧
    headMain fuel (some ('+' :: ds)) xs = ⟨xs.take (value ds), .success⟩ := by
  have key : ∀ s, strtol s = (clamp (value ds), []) →
      headMain fuel (some s) xs = ⟨xs.take (value ds), .success⟩ := by
    intro s hs
    simp only [headMain, headCount, hfstStrtol, hs, List.isEmpty_nil, if_true]
    obtain ⟨k, hk, hke⟩ : ∃ k : Nat, clamp (value ds) = (k : Int) ∧ xs.take k = xs.take (value ds) := by
      unfold clamp longMax longMin
      split
      · refine ⟨9223372036854775807, rfl, ?_⟩
        rw [List.take_of_length_le (by omega), List.take_of_length_le (by omega)]
      · rw [if_neg (by omega)]
        exact ⟨value ds, rfl, rfl⟩
    rw [hk]
    unfold head
    by_cases h0 : k = 0
    · subst h0; simp [← hke]
    · rw [if_pos (by omega), headLoop_eq, ← hke]
      congr 1
  exact ⟨key _ (strtol_digits hd), key _ (strtol_plus hd)⟩

/-- The option 03 on an archive of four. -/
example : Digits "03".toList ∧ headMain 0 (some "03".toList) [7, 8, 9, 10] = ⟨[7, 8, 9], .success⟩ ∧
    headMain 0 (some "9".toList) [7, 8] = ⟨[7, 8], .success⟩ := by
  refine ⟨⟨by decide, by decide⟩, by decide +kernel, by decide +kernel⟩

/-- **C91, hfst-head without an option** writes the first transducer. -/
theorem C91_head_default {α : Type} (fuel : Nat) (xs : List α) :
    headMain fuel none xs = ⟨xs.take 1, .success⟩ := by
  simp [headMain, headCount, head, headLoop_eq]

example : headMain 0 none [7, 8] = ⟨[7], .success⟩ := by decide

/-- **C91, hfst-head -n -K (partial).**  For a number below 2^32 hfst-head ends and has written all but the last K
transducers.  Missing: greater numbers, see `C91_head_endless_violated`. -/
theorem C91_head_but_partial {α : Type} (ds : List Char) (hd : Digits ds) (h0 : 0 < value ds)
    (h32 : value ds < 2 ^ 32) (xs : List α) (fuel : Nat) (hf : value ds < fuel) :
    headMain fuel (some ('-' :: ds)) xs = ⟨xs.take (xs.length - value ds), .success⟩ := by
  simp only [headMain, headCount, hfstStrtol, strtol_minus hd, List.isEmpty_nil, if_true]
  have hc : clamp (-(value ds : Int)) = -(value ds : Int) := by
    unfold clamp longMax longMin
    rw [if_neg (by omega), if_neg (by omega)]
  rw [hc]
  unfold head
  rw [if_neg (by omega), if_pos (by omega), if_neg (by unfold longMin; omega), Int.neg_neg,
    popLoop_eq (value ds) h32 (value ds) 0 xs fuel (by simp) hf]

example : Digits "2".toList ∧ headMain 3 (some "-2".toList) [7, 8, 9, 10] = ⟨[7, 8], .success⟩ ∧
    headMain 6 (some "-5".toList) [7, 8] = ⟨[], .success⟩ := by
  refine ⟨⟨by decide, by decide⟩, by decide +kernel, by decide +kernel⟩

/-- **C91 is violated by hfst-head -n -K for K from 2^32 on**: the counter of the loop has 32 bits and never reaches
K, so the tool never ends, whatever the archive; from 2^63 on the behaviour is undefined. -/
theorem C91_head_endless_violated {α : Type} (ds : List Char) (hd : Digits ds) (h32 : 2 ^ 32 ≤ value ds)
    (xs : List α) :
    (value ds < 2 ^ 63 → ∀ fuel, headMain fuel (some ('-' :: ds)) xs = ⟨[], .never⟩) ∧
    (2 ^ 63 ≤ value ds → ∀ fuel, headMain fuel (some ('-' :: ds)) xs = ⟨[], .undefined⟩) := by
  constructor
  · intro h63 fuel
    simp only [headMain, headCount, hfstStrtol, strtol_minus hd, List.isEmpty_nil, if_true]
    have hc : clamp (-(value ds : Int)) = -(value ds : Int) := by
      unfold clamp longMax longMin
      rw [if_neg (by omega), if_neg (by omega)]
    rw [hc]
    unfold head
    rw [if_neg (by omega), if_pos (by omega), if_neg (by unfold longMin; omega), Int.neg_neg,
      popLoop_endless _ (by omega)]
  · intro h63 fuel
    simp only [headMain, headCount, hfstStrtol, strtol_minus hd, List.isEmpty_nil, if_true]
    have hc : clamp (-(value ds : Int)) = longMin := by
      unfold clamp longMax longMin
      rw [if_neg (by omega)]
      split <;> omega
    rw [hc]
    rfl

example : Digits "5000000000".toList ∧ 2 ^ 32 ≤ value "5000000000".toList ∧
    value "5000000000".toList < 2 ^ 63 := by
  refine ⟨⟨by decide, by decide⟩, by decide +kernel, by decide +kernel⟩

/-- **C91, hfst-tail -n K.**  hfst-tail writes the last K transducers in their order, and it succeeds. -/
theorem C91_tail {α : Type} (ds : List Char) (hd : Digits ds) (xs : List α) (hx : xs.length < 2 ^ 63) :
    tailMain (some ds) xs = ⟨xs.drop (xs.length - value ds), .success⟩ := by
  simp only [tailMain, tailCount, if_neg (digits_head hd), hfstStrtol, strtol_digits hd, List.isEmpty_nil, if_true]
  by_cases hv : value ds = 0
  · simp [hv, clamp, longMax, longMin, tail]
  · obtain ⟨k, hk, hk0, hke⟩ : ∃ k : Nat, clamp (value ds) = (k : Int) ∧ 0 < k ∧
        xs.length - k = xs.length - value ds := by
      unfold clamp longMax longMin
      split
      · exact ⟨9223372036854775807, rfl, by omega, by omega⟩
      · rw [if_neg (by omega)]
        exact ⟨value ds, rfl, by omega, rfl⟩
    rw [hk]
    unfold tail
    rw [if_pos (by omega), lastLoop_eq k hk0 xs [] (by simp)]
    simp [hke]

example : Digits "2".toList ∧ tailMain (some "2".toList) [7, 8, 9, 10] = ⟨[9, 10], .success⟩ ∧
    tailMain (some "9".toList) [7, 8] = ⟨[7, 8], .success⟩ := by
  refine ⟨⟨by decide, by decide⟩, by decide +kernel, by decide +kernel⟩

/-- **C91, hfst-tail -n +K.**  hfst-tail writes the transducers from the Kth on, counted from one. -/
theorem C91_tail_from {α : Type} (ds : List Char) (hd : Digits ds) (h0 : 0 < value ds) (xs : List α)
    (hx : xs.length < 2 ^ 63 - 1) :
    tailMain (some ('+' :: ds)) xs = ⟨xs.drop (value ds - 1), .success⟩ := by
  simp only [tailMain, tailCount, List.head?_cons, if_true, hfstStrtol, strtol_plus hd, List.isEmpty_nil,
    Option.map_some]
  obtain ⟨k, hk, hk0, hk63, hke⟩ : ∃ k : Nat, clamp (value ds) = (k : Int) ∧ 0 < k ∧ k < 2 ^ 63 ∧
      xs.drop (k - 1) = xs.drop (value ds - 1) := by
    unfold clamp longMax longMin
    split
    · refine ⟨9223372036854775807, rfl, by omega, by omega, ?_⟩
      rw [List.drop_of_length_le (by omega), List.drop_of_length_le (by omega)]
    · rw [if_neg (by omega)]
      exact ⟨value ds, rfl, by omega, by omega, rfl⟩
  rw [hk]
  unfold tail
  rw [if_neg (by omega), if_pos (by omega), if_neg (by unfold longMin; omega), Int.neg_neg, skipLoop_eq k xs 0]
  simp [hke]

example : Digits "3".toList ∧ tailMain (some "+3".toList) [7, 8, 9, 10] = ⟨[9, 10], .success⟩ := by
  refine ⟨⟨by decide, by decide⟩, by decide +kernel⟩

/-- **C91 is violated by hfst-tail without an option.**  The help text says "if K is omitted, it defaults to +1 (all
except the first)"; the tool writes every archive whole, so that no archive with a transducer in it comes out without
its first one. -/
theorem C91_tail_default_violated {α : Type} (xs : List α) (hx : xs ≠ []) :
    tailMain none xs = ⟨xs, .success⟩ ∧ tailMain none xs ≠ ⟨xs.drop 1, .success⟩ := by
  have h : tailMain none xs = ⟨xs, .success⟩ := by
    have : tailMain none xs = ⟨skipLoop ((1 : Nat) : Int) 0 xs, .success⟩ := by
      simp only [tailMain, tailCount, tail]; rfl
    rw [this, skipLoop_eq]; rfl
  refine ⟨h, ?_⟩
  rw [h]
  intro he
  have := congrArg (fun r => r.written.length) he
  cases xs with
  | nil => exact hx rfl
  | cons x xs => simp at this

example : tailMain none [7, 8, 9] = ⟨[7, 8, 9], .success⟩ := by decide

/-! ## The texts that are numbers -/

theorem readDigits_split : ∀ (s : List Char) (acc : Nat) (v : Nat), readDigits acc s = (v, []) →
    ∀ c ∈ s, c.isDigit = true
  | [], _, _, _ => by simp
  | c :: cs, acc, v, h => by
    simp only [readDigits] at h
    split at h
    · rename_i hc
      intro d hd
      rcases List.mem_cons.1 hd with rfl | hd
      · exact hc
      · exact readDigits_split cs _ _ h d hd
    · simp at h

theorem readSign_split (s : List Char) : s = (readSign s).2 ∨ s = '+' :: (readSign s).2 ∨ s = '-' :: (readSign s).2 := by
  unfold readSign
  split
  · exact Or.inr (Or.inr rfl)
  · exact Or.inr (Or.inl rfl)
  · exact Or.inl rfl

/-- **C91, wrong numbers.**  hfst-head and hfst-tail write something for the text of an option only if the text is a
number: white space, at most one sign, and then nothing but digits. -/
theorem C91_number {α : Type} (fuel : Nat) (s : List Char) (xs : List α)
    (h : (headMain fuel (some s) xs).written ≠ [] ∨ (tailMain (some s) xs).written ≠ []) :
    ∃ w sign ds, s = w ++ sign ++ ds ∧ (∀ c ∈ w, isSpace c = true) ∧
      (sign = [] ∨ sign = ['+'] ∨ sign = ['-']) ∧ Digits ds := by
  have hk : ∃ k, hfstStrtol s = some k ∧ k ≠ 0 := by
    rcases h with h | h
    · unfold headMain headCount at h
      cases hs : hfstStrtol s with
      | none => simp [hs] at h
      | some k => exact ⟨k, rfl, fun h0 => by subst h0; simp [hs, head] at h⟩
    · unfold tailMain tailCount at h
      cases hs : hfstStrtol s with
      | none => split at h <;> simp_all
      | some k => exact ⟨k, rfl, fun h0 => by subst h0; split at h <;> simp_all [tail]⟩
  obtain ⟨k, hk, hk0⟩ := hk
  have hsplit : s = s.takeWhile isSpace ++ s.dropWhile isSpace := (List.takeWhile_append_dropWhile).symm
  have hd : Digits (readSign (s.dropWhile isSpace)).2 := by
    unfold hfstStrtol strtol at hk
    generalize readSign (s.dropWhile isSpace) = r at hk
    obtain ⟨neg, t⟩ := r
    cases t with
    | nil =>
      exfalso
      simp only at hk
      split at hk
      · cases hk; exact hk0 rfl
      · cases hk
    | cons c cs =>
      simp only at hk
      by_cases hc : c.isDigit = true
      · refine ⟨by simp, ?_⟩
        simp only [hc, if_true] at hk
        split at hk
        · rename_i he
          rw [List.isEmpty_iff] at he
          exact readDigits_split (c :: cs) 0 (readDigits 0 (c :: cs)).1 (Prod.ext rfl he)
        · cases hk
      · exfalso
        simp only [if_neg hc] at hk
        split at hk
        · cases hk; exact hk0 rfl
        · cases hk
  refine ⟨s.takeWhile isSpace, ?_⟩
  have hw : ∀ c ∈ s.takeWhile isSpace, isSpace c = true := fun c hc => by
    have := List.all_takeWhile (l := s) (p := isSpace)
    exact List.all_eq_true.1 this c hc
  rcases readSign_split (s.dropWhile isSpace) with he | he | he
  · exact ⟨[], _, by rw [List.append_nil, ← he]; exact hsplit, hw, Or.inl rfl, hd⟩
  · exact ⟨['+'], _, by
      rw [List.append_assoc, List.singleton_append, ← he]; exact hsplit, hw, Or.inr (Or.inl rfl), hd⟩
  · exact ⟨['-'], _, by
      rw [List.append_assoc, List.singleton_append, ← he]; exact hsplit, hw, Or.inr (Or.inr rfl), hd⟩

example : (headMain 0 (some " +2".toList) [7, 8, 9]).written = [7, 8] ∧
    headMain 0 (some "2x".toList) [7, 8, 9] = ⟨[], .failure⟩ ∧
    tailMain (some "+-2".toList) [7, 8, 9] = ⟨[], .failure⟩ := by
  refine ⟨by decide +kernel, by decide +kernel, by decide +kernel⟩

/-! ## hfst-split -/

theorem splitName_inj {pre ext : List Char} {m n : Nat} (h : splitName pre ext m = splitName pre ext n) : m = n := by
  unfold splitName at h
  have h1 := List.append_cancel_left (List.append_cancel_right h)
  rw [← Nat.ofDigitChars_toDigits (b := 10) (n := m) (by decide) (by decide), h1,
    Nat.ofDigitChars_toDigits (by decide) (by decide)]

theorem splitLoop_eq {α : Type} (pre ext : List Char) : ∀ (xs : List α) (n : Nat)
    (fs : List Char → Option (List α)) (f : List Char),
    (∀ i x, xs[i]? = some x → f = splitName pre ext (n + i + 1) → splitLoop pre ext n fs xs f = some [x]) ∧
    ((∀ i, i < xs.length → f ≠ splitName pre ext (n + i + 1)) → splitLoop pre ext n fs xs f = fs f)
  | [], n, fs, f => by simp [splitLoop]
  | y :: xs, n, fs, f => by
    have ih := splitLoop_eq pre ext xs (n + 1)
      (fun g => if g = splitName pre ext (n + 1) then some [y] else fs g) f
    simp only [splitLoop]
    refine ⟨fun i x hi hf => ?_, fun h => ?_⟩
    · cases i with
      | zero =>
        simp at hi; subst hi
        rw [ih.2, if_pos (by simpa using hf)]
        intro j _ hj
        have := splitName_inj (hf.symm.trans hj)
        omega
      | succ i =>
        apply ih.1 i x (by simpa using hi)
        rw [hf]; congr 1; omega
    · rw [ih.2, if_neg (by simpa using h 0 (by simp))]
      intro j hj hf
      apply h (j + 1) (by simpa using hj)
      rw [hf]; congr 1; omega

/-- **C91, hfst-split.**  After hfst-split the file named PRE + N + EXT holds exactly the Nth transducer of the
archive, for every N up to the size of the archive, whatever was stored there before, and no other file is changed. -/
theorem C91_split {α : Type} (pre ext : List Char) (fs : List Char → Option (List α)) (xs : List α) :
    (∀ i x, xs[i]? = some x →
      split pre ext fs xs (pre ++ (toString (i + 1)).toList ++ ext) = some [x]) ∧
    (∀ f, (∀ i, i < xs.length → f ≠ pre ++ (toString (i + 1)).toList ++ ext) → split pre ext fs xs f = fs f) := by
  have hn : ∀ i, pre ++ (toString (i + 1)).toList ++ ext = splitName pre ext (0 + i + 1) := by
    intro i
    unfold splitName
    rw [show toString (i + 1) = (i + 1).repr from rfl, Nat.toList_repr, Nat.zero_add]
  refine ⟨fun i x hi => ?_, fun f h => ?_⟩
  · exact (splitLoop_eq pre ext xs 0 fs _).1 i x hi (hn i)
  · exact (splitLoop_eq pre ext xs 0 fs f).2 (fun i hi => by rw [← hn i]; exact h i hi)

/-- Two transducers; a file of an earlier run is in the way. -/
example : let fs : List Char → Option (List Nat) := fun f => if f = "rule2.tr".toList then some [1, 2] else none
    split "rule".toList ".tr".toList fs [7, 8] "rule1.tr".toList = some [7] ∧
    split "rule".toList ".tr".toList fs [7, 8] "rule2.tr".toList = some [8] ∧
    split "rule".toList ".tr".toList fs [7, 8] "rule3.tr".toList = none := by
  refine ⟨by decide +kernel, by decide +kernel, by decide +kernel⟩

end Hfst.Tools
