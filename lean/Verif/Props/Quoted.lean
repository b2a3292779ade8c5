import Verif.Model.Escapes
import Verif.Props.Utf8
import Mathlib.Data.List.TakeWhile
import Mathlib.Tactic.SplitIfs
import Mathlib.Tactic.Tauto

/-!
# Quoted and braced text

C56 (quoted text), C57 (text in braces and other delimiters), C58 (ranges of characters).
-/
namespace Hfst.Escapes
open Hfst.StdString Hfst.Basic Hfst.Text

/-! ## C56: quoted text -/

/-- Specification: between quotes `s` denotes `x`.  A character other than a backslash or a line end stands for itself, a
backslash and one of the letters `abfnrtv` for the control character of C, a backslash and a character that begins no
other escape for that character. -/
inductive Denotes : Str → Str → Prop
  | nil : Denotes [] []
  | plain {c s x} : c ∉ ['\\', '\n', '\r'] → Denotes s x → Denotes (c :: s) (c :: x)
  | control {d e s x} :
      (d, e) ∈ [('a', Char.ofNat 7), ('b', Char.ofNat 8), ('t', Char.ofNat 9), ('n', Char.ofNat 10),
        ('v', Char.ofNat 11), ('f', Char.ofNat 12), ('r', Char.ofNat 13)] →
      Denotes s x → Denotes ('\\' :: d :: s) (e :: x)
  | escaped {d s x} :
      d ∉ ['0', '1', '2', '3', '4', '5', '6', '7', 'a', 'b', 'f', 'n', 'r', 't', 'u', 'U', 'v', 'x'] →
      Denotes s x → Denotes ('\\' :: d :: s) (d :: x)

theorem octal_iff (d : Char) : ('0' ≤ d ∧ d ≤ '7') ↔ d ∈ ['0', '1', '2', '3', '4', '5', '6', '7'] := by
  constructor
  · rintro ⟨h1, h2⟩
    have h1' : 48 ≤ d.toNat := h1
    have h2' : d.toNat ≤ 55 := h2
    have : ∀ n, 48 ≤ n → n ≤ 55 → Char.ofNat n ∈ ['0', '1', '2', '3', '4', '5', '6', '7'] := by
      intro n a b
      have : n = 48 ∨ n = 49 ∨ n = 50 ∨ n = 51 ∨ n = 52 ∨ n = 53 ∨ n = 54 ∨ n = 55 := by omega
      rcases this with h | h | h | h | h | h | h | h <;> subst h <;> decide
    have := this d.toNat h1' h2'
    rwa [Char.ofNat_toNat] at this
  · intro h
    simp only [List.mem_cons, List.not_mem_nil, or_false] at h
    rcases h with h | h | h | h | h | h | h | h <;> subst h <;> decide

theorem letterEscape_none {d : Char} (h : d ∉ ['a', 'b', 'f', 'n', 'r', 't', 'v']) : letterEscape d = none := by
  simp only [List.mem_cons, List.not_mem_nil, or_false, not_or] at h
  obtain ⟨h1, h2, h3, h4, h5, h6, h7⟩ := h
  unfold letterEscape
  rw [if_neg h1, if_neg h2, if_neg h3, if_neg h4, if_neg h5, if_neg h6, if_neg h7]

theorem denotes_length {s x : Str} (h : Denotes s x) : x.length ≤ s.length := by
  induction h <;> simp_all <;> omega

theorem xreQuoted_denotes {s x : Str} (h : Denotes s x) : ∀ n, s.length ≤ n → xreQuoted n s = .ok x := by
  induction h with
  | nil => intro n _; cases n <;> rfl
  | @plain c s x hc _ ih =>
    intro n hn
    obtain ⟨n, rfl⟩ : ∃ m, n = m + 1 := ⟨n - 1, by simp at hn; omega⟩
    simp only [List.mem_cons, List.not_mem_nil, or_false, not_or] at hc
    rw [xreQuoted.eq_def]
    dsimp only
    rw [if_neg (by tauto), if_pos hc.1, ih n (by simp at hn; omega)]
    rfl
  | @control d e s x hd _ ih =>
    intro n hn
    obtain ⟨n, rfl⟩ : ∃ m, n = m + 1 := ⟨n - 1, by simp at hn; omega⟩
    have ih := ih n (by simp at hn; omega)
    simp only [List.mem_cons, List.not_mem_nil, or_false, Prod.mk.injEq] at hd
    rcases hd with ⟨rfl, rfl⟩ | ⟨rfl, rfl⟩ | ⟨rfl, rfl⟩ | ⟨rfl, rfl⟩ | ⟨rfl, rfl⟩ | ⟨rfl, rfl⟩ | ⟨rfl, rfl⟩ <;>
      · rw [xreQuoted.eq_def]
        dsimp only
        rw [if_neg (by decide), if_neg (by decide), if_neg (by decide), ih]
        rfl
  | @escaped d s x hd _ ih =>
    intro n hn
    obtain ⟨n, rfl⟩ : ∃ m, n = m + 1 := ⟨n - 1, by simp at hn; omega⟩
    have ih := ih n (by simp at hn; omega)
    have ho : ¬ ('0' ≤ d ∧ d ≤ '7') := by
      rw [octal_iff]; intro h; exact hd (by simp only [List.mem_cons, List.not_mem_nil, or_false] at h ⊢; tauto)
    have hl : letterEscape d = none := letterEscape_none fun h =>
      hd (by simp only [List.mem_cons, List.not_mem_nil, or_false] at h ⊢; tauto)
    simp only [List.mem_cons, List.not_mem_nil, or_false, not_or] at hd
    rw [xreQuoted.eq_def]
    dsimp only
    rw [if_neg (by decide), if_neg (by decide), if_neg ho, hl]
    dsimp only
    rw [if_neg (by tauto), if_neg (by tauto), ih]
    rfl

theorem pmatchQuoted_denotes (u : Nat → Str) {s x : Str} (h : Denotes s x) :
    ∀ n, s.length ≤ n → pmatchQuoted u n s = .ok x := by
  induction h with
  | nil => intro n _; cases n <;> rfl
  | @plain c s x hc _ ih =>
    intro n hn
    obtain ⟨n, rfl⟩ : ∃ m, n = m + 1 := ⟨n - 1, by simp at hn; omega⟩
    simp only [List.mem_cons, List.not_mem_nil, or_false, not_or] at hc
    rw [pmatchQuoted.eq_def]
    dsimp only
    rw [if_pos hc.1, ih n (by simp at hn; omega)]
    rfl
  | @control d e s x hd _ ih =>
    intro n hn
    obtain ⟨n, rfl⟩ : ∃ m, n = m + 1 := ⟨n - 1, by simp at hn; omega⟩
    have ih := ih n (by simp at hn; omega)
    simp only [List.mem_cons, List.not_mem_nil, or_false, Prod.mk.injEq] at hd
    rcases hd with ⟨rfl, rfl⟩ | ⟨rfl, rfl⟩ | ⟨rfl, rfl⟩ | ⟨rfl, rfl⟩ | ⟨rfl, rfl⟩ | ⟨rfl, rfl⟩ | ⟨rfl, rfl⟩ <;>
      · rw [pmatchQuoted.eq_def]
        dsimp only
        rw [if_neg (by decide), if_neg (by decide), ih]
        rfl
  | @escaped d s x hd _ ih =>
    intro n hn
    obtain ⟨n, rfl⟩ : ∃ m, n = m + 1 := ⟨n - 1, by simp at hn; omega⟩
    have ih := ih n (by simp at hn; omega)
    have ho : ¬ ('0' ≤ d ∧ d ≤ '7') := by
      rw [octal_iff]; intro h; exact hd (by simp only [List.mem_cons, List.not_mem_nil, or_false] at h ⊢; tauto)
    have hl : letterEscape d = none := letterEscape_none fun h =>
      hd (by simp only [List.mem_cons, List.not_mem_nil, or_false] at h ⊢; tauto)
    simp only [List.mem_cons, List.not_mem_nil, or_false, not_or] at hd
    rw [pmatchQuoted.eq_def]
    dsimp only
    rw [if_neg (by decide), if_neg ho, hl]
    dsimp only
    rw [if_neg (by tauto), if_neg (by tauto), if_neg (by tauto), ih]
    rfl

theorem cString_eq {x : Str} (h : nul ∉ x) : cString x = x :=
  List.takeWhile_eq_self_iff.mpr fun c hc => by
    simp only [ne_eq, decide_not, Bool.not_eq_eq_eq_not, Bool.not_true, decide_eq_false_iff_not]
    rintro rfl; exact h hc

/-- Quoted text in a regular expression denotes its characters.  Missing: the escapes with numbers, see the theorems
below. -/
theorem C56_regex_partial {s x : Str} (h : Denotes s x) (hx : nul ∉ x) : xreParseQuoted s = .ok x := by
  unfold xreParseQuoted
  rw [xreQuoted_denotes h _ (Nat.le_refl _)]
  dsimp only
  rw [if_neg (by have := denotes_length h; omega), cString_eq hx]

/-- Quoted text in a pattern file denotes its characters.  Missing: the escapes with numbers, see the theorems below. -/
theorem C56_pattern_partial (u : Nat → Str) {s x : Str} (h : Denotes s x) (hx : nul ∉ x) :
    pmatchParseQuoted u s = .ok x := by
  unfold pmatchParseQuoted
  rw [pmatchQuoted_denotes u h _ (Nat.le_refl _)]
  dsimp only
  rw [if_neg (by have := denotes_length h; omega), cString_eq hx]

/-- Every text can be written between quotes. -/
theorem C56_complete : ∀ x : Str, ∃ s, Denotes s x
  | [] => ⟨[], .nil⟩
  | c :: x => by
    obtain ⟨s, h⟩ := C56_complete x
    by_cases h1 : c = '\\'
    · subst h1; exact ⟨_, .escaped (by decide) h⟩
    · by_cases h2 : c = '\n'
      · subst h2; exact ⟨_, .control (d := 'n') (by decide) h⟩
      · by_cases h3 : c = '\r'
        · subst h3; exact ⟨_, .control (d := 'r') (by decide) h⟩
        · exact ⟨_, .plain (by simp [h1, h2, h3]) h⟩

example : Denotes "a\\tb\\\"c".toList "a\tb\"c".toList :=
  .plain (by decide) (.control (by decide) (.plain (by decide) (.escaped (by decide) (.plain (by decide) .nil))))

theorem emit_ok {cs : Str} {o : Outcome Str} {r : Str} (h : emit cs o = .ok r) : ∃ r', o = .ok r' ∧ r = cs ++ r' := by
  cases o with
  | ok r' => exact ⟨r', rfl, (Outcome.ok.inj h).symm⟩
  | throws => cases h
  | undefined => cases h

theorem digitsOf_length (base : Nat) : ∀ (s : Str) (acc : Nat), (digitsOf base acc s).2.length ≤ s.length
  | [], _ => Nat.le_refl _
  | c :: s, acc => by
    unfold digitsOf
    split
    · exact Nat.le_trans (digitsOf_length base s _) (by simp)
    · exact Nat.le_refl _

theorem strtol_length (base : Nat) (s : Str) : (strtol base s).2.length ≤ s.length := by
  have h0 : (s.dropWhile isSpace).length ≤ s.length := (List.dropWhile_suffix _).length_le
  have key : ∀ u : Str, u.length ≤ s.length → (digitsOf base 0 u).2.length ≤ s.length :=
    fun u hu => Nat.le_trans (digitsOf_length base u 0) hu
  unfold strtol
  dsimp only
  split_ifs <;> first
    | exact Nat.le_refl _
    | exact key _ h0
    | (refine key _ ?_; simp only [List.length_drop]; omega)

theorem xreQuoted_length : ∀ (n : Nat) (s r : Str), xreQuoted n s = .ok r → r.length ≤ s.length := by
  intro n s
  fun_induction xreQuoted n s <;> intro r h
  all_goals first
    | (cases h; done)
    | (cases h; simp; done)
    | skip
  all_goals first
    | (obtain ⟨r', e, rfl⟩ := emit_ok h
       rename_i ih
       have := ih _ e
       simp at this ⊢
       omega)
    | (rename_i ih
       have := ih _ h
       simp at this ⊢
       omega)
    | (obtain ⟨r', e, rfl⟩ := emit_ok h
       rename_i ih
       exact Nat.succ_le_succ (Nat.le_succ_of_le (Nat.le_trans (ih _ e) (strtol_length 10 _))))

/-- Quoted text in a regular expression never makes the code write outside its buffer: whenever the loop ends, what it
wrote fits. -/
theorem C56_buffer (s r : Str) (h : xreQuoted s.length s = .ok r) : ∃ x, xreParseQuoted s = .ok x := by
  have := xreQuoted_length _ _ _ h
  unfold xreParseQuoted
  rw [h]
  dsimp only
  rw [if_neg (by omega)]
  exact ⟨_, rfl⟩

theorem pmatchQuoted_length (u : Nat → Str) (hu : ∀ n, (u n).length ≤ 4) :
    ∀ (n : Nat) (s r : Str), pmatchQuoted u n s = .ok r → r.length ≤ s.length := by
  intro n s
  fun_induction pmatchQuoted u n s <;> intro r h
  all_goals first
    | (cases h; done)
    | (cases h; simp; done)
    | skip
  all_goals first
    | (obtain ⟨r', e, rfl⟩ := emit_ok h
       rename_i ih
       have := ih _ e
       simp at this ⊢
       omega)
    | (rename_i ih
       have := ih _ h
       simp at this ⊢
       omega)
    | (obtain ⟨r', e, rfl⟩ := emit_ok h
       rename_i ih
       have h1 := ih _ e
       rw [List.length_append, List.length_append, List.length_singleton]
       refine Nat.le_trans (Nat.add_le_add_right (Nat.add_le_add_right (hu _) 1) _) ?_
       simp at *
       omega)
    | (obtain ⟨r', e, rfl⟩ := emit_ok h
       rename_i ih
       exact Nat.succ_le_succ (Nat.le_succ_of_le (Nat.le_trans (ih _ e) (strtol_length 16 _))))

/-- The same for pattern files, where a code point gives at most four characters. -/
theorem C56_pattern_buffer (u : Nat → Str) (hu : ∀ n, (u n).length ≤ 4) (s r : Str)
    (h : pmatchQuoted u s.length s = .ok r) : ∃ x, pmatchParseQuoted u s = .ok x := by
  have := pmatchQuoted_length u hu _ _ _ h
  unfold pmatchParseQuoted
  rw [h]
  dsimp only
  rw [if_neg (by omega)]
  exact ⟨_, rfl⟩

example : xreQuoted 3 "a\\t".toList = .ok "a\t".toList := by decide

/-- A hexadecimal escape of a regular expression is read as a decimal number: `\x41` gives `)`. -/
theorem C56_hex_violated : xreParseQuoted "\\x41".toList = .ok ")".toList ∧
    ∀ u, pmatchParseQuoted u "\\x41".toList = .ok "A".toList :=
  ⟨by decide, fun _ => rfl⟩

/-- An octal escape swallows the next character, and near the end of the text it reads outside the buffer. -/
theorem C56_octal_violated : xreParseQuoted "\\101bc".toList = .ok "c".toList ∧
    xreParseQuoted "\\0".toList = .undefined ∧ xreParseQuoted "a\\u1".toList = .undefined ∧
    ∀ u, pmatchParseQuoted u "\\0".toList = .undefined :=
  ⟨by decide, by decide, by decide, fun _ => rfl⟩

theorem pmatchQuoted_append (u : Nat → Str) {w y : Str} (h : Denotes w y) (s r : Str) : ∀ n,
    pmatchQuoted u n (w ++ s) = .ok r → ∃ m r', pmatchQuoted u m s = .ok r' ∧ r = y ++ r' := by
  induction h generalizing r with
  | nil => intro n e; exact ⟨n, r, e, rfl⟩
  | @plain c w y hc _ ih =>
    intro n e
    cases n with
    | zero => cases e
    | succ n =>
      simp only [List.mem_cons, List.not_mem_nil, or_false, not_or] at hc
      rw [List.cons_append, pmatchQuoted.eq_def] at e
      dsimp only at e
      rw [if_pos hc.1] at e
      obtain ⟨r1, e1, rfl⟩ := emit_ok e
      obtain ⟨m, r', e2, rfl⟩ := ih _ _ e1
      exact ⟨m, r', e2, rfl⟩
  | @control d e' w y hd _ ih =>
    intro n e
    cases n with
    | zero => cases e
    | succ n =>
      simp only [List.mem_cons, List.not_mem_nil, or_false, Prod.mk.injEq] at hd
      rcases hd with ⟨rfl, rfl⟩ | ⟨rfl, rfl⟩ | ⟨rfl, rfl⟩ | ⟨rfl, rfl⟩ | ⟨rfl, rfl⟩ | ⟨rfl, rfl⟩ | ⟨rfl, rfl⟩ <;>
        · rw [List.cons_append, List.cons_append, pmatchQuoted.eq_def] at e
          dsimp only at e
          rw [if_neg (by decide), if_neg (by decide)] at e
          obtain ⟨r1, e1, rfl⟩ := emit_ok e
          obtain ⟨m, r', e2, rfl⟩ := ih _ _ e1
          exact ⟨m, r', e2, rfl⟩
  | @escaped d w y hd _ ih =>
    intro n e
    cases n with
    | zero => cases e
    | succ n =>
      have ho : ¬ ('0' ≤ d ∧ d ≤ '7') := by
        rw [octal_iff]; intro h; exact hd (by simp only [List.mem_cons, List.not_mem_nil, or_false] at h ⊢; tauto)
      have hl : letterEscape d = none := letterEscape_none fun h =>
        hd (by simp only [List.mem_cons, List.not_mem_nil, or_false] at h ⊢; tauto)
      simp only [List.mem_cons, List.not_mem_nil, or_false, not_or] at hd
      rw [List.cons_append, List.cons_append, pmatchQuoted.eq_def] at e
      dsimp only at e
      rw [if_neg (by decide), if_neg ho, hl] at e
      dsimp only at e
      rw [if_neg (by tauto), if_neg (by tauto), if_neg (by tauto)] at e
      obtain ⟨r1, e1, rfl⟩ := emit_ok e
      obtain ⟨m, r', e2, rfl⟩ := ih _ _ e1
      exact ⟨m, r', e2, rfl⟩

theorem cString_nul {a : Str} (h : nul ∉ a) (b : Str) : cString (a ++ nul :: b) = a := by
  unfold cString
  rw [List.takeWhile_append_of_pos]
  · simp
  · intro c hc
    simp only [ne_eq, decide_not, Bool.not_eq_eq_eq_not, Bool.not_true, decide_eq_false_iff_not]
    rintro rfl; exact h hc

/-- In a pattern file everything after an escaped code point is lost: whatever follows, the result is what stands before
the escape and the character itself. -/
theorem C56_codepoint_violated (u : Nat → Str) (hu : ∀ n, nul ∉ u n) {w y : Str} (h : Denotes w y) (hy : nul ∉ y)
    (digits rest r : Str) (hd : digits.length = 4) (hr : pmatchParseQuoted u (w ++ '\\' :: 'u' :: (digits ++ rest)) = .ok r) :
    r = y ++ u ((strtol 16 digits).1 % 2 ^ 32).toNat := by
  unfold pmatchParseQuoted at hr
  split at hr
  · rename_i q hq
    split at hr
    · cases hr
    · obtain ⟨m, r', e, rfl⟩ := pmatchQuoted_append u h _ _ _ hq
      cases m with
      | zero => cases e
      | succ m =>
        rw [pmatchQuoted.eq_def] at e
        dsimp only at e
        rw [if_neg (by decide), if_neg (by decide), show letterEscape 'u' = none from by decide] at e
        dsimp only at e
        rw [if_pos rfl, if_neg (by simp; omega)] at e
        obtain ⟨r1, _, rfl⟩ := emit_ok e
        rw [List.take_append_of_le_length (by omega), List.take_of_length_le (by omega)] at hr
        have := (Outcome.ok.inj hr).symm
        rw [this, List.append_assoc, List.singleton_append, ← List.append_assoc, cString_nul]
        simp only [List.mem_append, not_or]
        exact ⟨hy, hu _⟩
  · cases hr
  · cases hr

example (u : Nat → Str) (h : u 0xe9 = ['e']) : pmatchParseQuoted u "a\\u00e9bc".toList = .ok ['a', 'e'] := by
  have : pmatchParseQuoted u "a\\u00e9bc".toList =
      (match emit (u 0xe9 ++ [nul]) (.ok ['b', 'c']) with
        | .ok r => if 9 + 1 < ('a' :: r).length + 1 then .undefined else .ok (cString ('a' :: r))
        | .throws => .throws
        | .undefined => .undefined) := by rfl
  rw [this, h]
  decide

/-! ## C57: braces and other delimiters -/

theorem curlyGo_false : ∀ w : Str, curlyGo false (w ++ ['}']) = w
  | [] => by decide
  | [c] => by simp [curlyGo]
  | c :: d :: w => by
    have := curlyGo_false (d :: w)
    simp only [List.cons_append] at this ⊢
    rw [curlyGo]
    simp [this]

/-- Text in braces stands for itself, also if it contains braces.  The lexer never passes empty braces. -/
theorem C57_braces (w : Str) (hw : w ≠ []) : stripCurly ('{' :: (w ++ ['}'])) = w := by
  cases w with
  | nil => exact absurd rfl hw
  | cons c w =>
    have := curlyGo_false w
    unfold stripCurly
    rw [List.cons_append, curlyGo]
    simp [this]

example : stripCurly "{a}b{}".toList = "a}b{".toList := by decide

/-- Specification: a text with a backslash before each delimiter and backslash. -/
def protect (delim : Char) (x : Str) : Str :=
  x.flatMap fun c => if c = delim ∨ c = '\\' then ['\\', c] else [c]

/-- Removing the protection of delimiters gives the text back. -/
theorem C57_delimited (delim : Char) : ∀ x : Str, unescapeDelimited delim (protect delim x) = x
  | [] => rfl
  | c :: x => by
    have ih := C57_delimited delim x
    unfold protect at ih ⊢
    rw [List.flatMap_cons]
    by_cases h : c = delim ∨ c = '\\'
    · rw [if_pos h, List.cons_append, List.cons_append, List.nil_append, unescapeDelimited, if_pos ⟨rfl, h⟩, ih]
    · rw [if_neg h, List.cons_append, List.nil_append]
      have hc : c ≠ '\\' := fun e => h (.inr e)
      generalize x.flatMap (fun c => if c = delim ∨ c = '\\' then ['\\', c] else [c]) = y at ih
      cases y with
      | nil => rw [unescapeDelimited, ← ih]; rfl
      | cons d y => rw [unescapeDelimited, if_neg (fun h => hc h.1), ih]

example : protect '}' "a}\\".toList = "a\\}\\\\".toList := by decide

/-! ## C58: ranges of characters -/

/-- How the code classifies a first byte. -/
theorem first_byte : ∀ n : Fin 256, (UInt8.ofNat n.val ≤ 127 ↔ n.val < 128) ∧
    (UInt8.ofNat n.val &&& (128 + 64) = 128 + 64 ↔ 192 ≤ n.val) ∧ (UInt8.ofNat n.val &&& 127).toNat = n.val % 128 ∧
    (UInt8.ofNat n.val &&& 31).toNat = n.val % 32 ∧ (UInt8.ofNat n.val &&& 63).toNat = n.val % 64 := by
  decide +kernel

theorem or_low : ∀ a b : Nat, b < 64 → (a <<< 6) ||| b = a * 64 + b := by
  intro a b h
  have := Nat.two_pow_add_eq_or_of_lt (i := 6) h a
  rw [Nat.shiftLeft_eq, Nat.mul_comm a (2 ^ 6), ← this]

/-- A character of one or two bytes is read as its code point, and reading goes on behind it.  Missing: all other
characters, see `C58_violated`. -/
theorem C58_partial (c : Char) (h : c.val.toNat < 0x800) (rest : Hfst.Tok.Bytes) :
    nextCodepoint (String.utf8EncodeChar c ++ rest) = .ok (c.val.toNat, rest) := by
  have e := Hfst.Utf8.C52_codepointToUtf8 c
  unfold Hfst.Utf8.codepointToUtf8 at e
  generalize c.val.toNat = v at *
  by_cases h1 : v < 0x80
  · rw [if_pos h1] at e
    rw [← Option.some.inj e]
    have f := first_byte ⟨v, by omega⟩
    dsimp only at f
    rw [List.cons_append, List.nil_append, nextCodepoint, if_pos (f.1.mpr (by omega)), contValue, f.2.2.1,
      Nat.mod_eq_of_lt (by omega)]
  · rw [if_neg h1, if_pos h] at e
    rw [← Option.some.inj e]
    have f := first_byte ⟨192 + v / 64, by omega⟩
    have g := first_byte ⟨128 + v % 64, by omega⟩
    dsimp only at f g
    rw [List.cons_append, List.cons_append, List.nil_append, nextCodepoint, if_neg (fun h => by have := f.1.mp h; omega),
      if_pos (f.2.1.mpr (by omega)), contValue, contValue, f.2.2.2.1, g.2.2.2.2, or_low _ _ (by omega)]
    congr 2
    omega

/-- Every character of three or four bytes is read as one of two bytes: reading goes on inside the character. -/
theorem C58_violated (c : Char) (h : 0x800 ≤ c.val.toNat) (rest : Hfst.Tok.Bytes) :
    ∃ v b bs, nextCodepoint (String.utf8EncodeChar c ++ rest) = .ok (v, b :: bs ++ rest) ∧ v < 0x800 := by
  have e := Hfst.Utf8.C52_codepointToUtf8 c
  have hv : c.val.toNat < 0xD800 ∨ (0xDFFF < c.val.toNat ∧ c.val.toNat < 0x110000) := c.valid
  unfold Hfst.Utf8.codepointToUtf8 at e
  generalize c.val.toNat = v at *
  rw [if_neg (by omega), if_neg (by omega), if_neg (by omega)] at e
  have read : ∀ a b : Nat, 192 ≤ a → a < 256 → b < 256 → ∀ s, ∃ v, v < 0x800 ∧
      nextCodepoint (UInt8.ofNat a :: UInt8.ofNat b :: s) = .ok (v, s) := by
    intro a b ha ha' hb s
    have f := first_byte ⟨a, ha'⟩
    have g := first_byte ⟨b, hb⟩
    dsimp only at f g
    refine ⟨a % 32 * 64 + b % 64, by omega, ?_⟩
    rw [nextCodepoint, if_neg (fun h => by have := f.1.mp h; omega), if_pos (f.2.1.mpr ha), contValue, contValue,
      f.2.2.2.1, g.2.2.2.2, or_low _ _ (by omega)]
  by_cases h1 : v < 0x10000
  · rw [if_pos h1] at e
    rw [← Option.some.inj e]
    obtain ⟨w, hw, e'⟩ := read (224 + v / 4096) (128 + v / 64 % 64) (by omega) (by omega) (by omega)
      ([UInt8.ofNat (128 + v % 64)] ++ rest)
    exact ⟨w, _, [], e', hw⟩
  · rw [if_neg h1, if_pos (by omega)] at e
    rw [← Option.some.inj e]
    obtain ⟨w, hw, e'⟩ := read (240 + v / 262144) (128 + v / 4096 % 64) (by omega) (by omega) (by omega)
      ([UInt8.ofNat (128 + v / 64 % 64), UInt8.ofNat (128 + v % 64)] ++ rest)
    exact ⟨w, _, _, e', hw⟩

example : nextCodepoint [0xe2, 0x82, 0xac, 0x2d] = .ok (0x82, [0xac, 0x2d]) := by decide

end Hfst.Escapes
