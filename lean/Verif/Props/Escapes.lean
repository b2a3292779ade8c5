import Verif.Model.Escapes
import Verif.Lemmas.Text
import Mathlib.Data.List.Infix
import Mathlib.Data.List.TakeWhile
import Mathlib.Tactic.SplitIfs

/-!
# Escapes: what the escaped text denotes

C48 (lexc percents), C49 (white space around a text), C50 (regular expression percents).
-/
namespace Hfst.Escapes
open Hfst.StdString Hfst.Basic Hfst.Text

/-! ## C48: lexc -/

/-- Specification: the text `s` spells `x` in lexc.  A character other than `%`, `@` (and `0` where zeros are epsilons)
stands for itself, `%c` for `c`, `%0` for a literal zero, a bare `0` for epsilon, and `@...@` for itself. -/
inductive Spells (zeros : Bool) : Str → Str → Prop
  | nil : Spells zeros [] []
  | plain {c s x} : c ≠ '%' → c ≠ '@' → (zeros = true → c ≠ '0') → Spells zeros s x → Spells zeros (c :: s) (c :: x)
  | escaped {c s x} : c ≠ '0' → Spells zeros s x → Spells zeros ('%' :: c :: s) (c :: x)
  | literalZero {s x} : Spells zeros s x → Spells zeros ('%' :: '0' :: s) (['@', 'Z', 'E', 'R', 'O', '@'] ++ x)
  | epsilon {s x} : zeros = true → Spells zeros s x → Spells zeros ('0' :: s) (['@', '0', '@'] ++ x)
  | block {w s x} : '@' ∉ w → Spells zeros s x → Spells zeros ('@' :: (w ++ '@' :: s)) ('@' :: (w ++ '@' :: x))
  | openBlock {w} : '@' ∉ w → Spells zeros ('@' :: w) ('@' :: w)

theorem lexcGo_block (z : Bool) (s : Str) : ∀ w : Str, '@' ∉ w →
    lexcGo z .inAt (w ++ '@' :: s) = (w ++ '@' :: (lexcGo z .normal s).1, (lexcGo z .normal s).2)
  | [], _ => by simp [lexcGo]
  | c :: w, h => by
    have hc : c ≠ '@' := fun e => h (by simp [e])
    have hw : '@' ∉ w := fun e => h (by simp [e])
    simp [lexcGo, hc, lexcGo_block z s w hw]

theorem lexcGo_open (z : Bool) : ∀ w : Str, '@' ∉ w → lexcGo z .inAt w = (w, false)
  | [], _ => by simp [lexcGo]
  | c :: w, h => by
    have hc : c ≠ '@' := fun e => h (by simp [e])
    have hw : '@' ∉ w := fun e => h (by simp [e])
    simp [lexcGo, hc, lexcGo_open z w hw]

theorem lexcGo_spells {z : Bool} {s x : Str} (h : Spells z s x) : lexcGo z .normal s = (x, false) := by
  induction h with
  | nil => simp [lexcGo]
  | @plain c s x h1 h2 h3 _ ih =>
    have : (z && decide (c = '0')) = false := by
      cases z with
      | false => rfl
      | true => simp [h3 rfl]
    simp [lexcGo, h1, h2, this, ih]
  | escaped h1 _ ih => simp [lexcGo, h1, ih]
  | literalZero _ ih => simp [lexcGo, ih]
  | epsilon h1 _ ih => subst h1; simp [lexcGo, ih]
  | block h1 _ ih => simp [lexcGo, lexcGo_block z _ _ h1, ih]
  | openBlock h1 => simp [lexcGo, lexcGo_open z _ h1]

theorem lexcGo_len_zeros : ∀ (s : Str) (m : Mode),
    (lexcGo true m s).1.length ≤ 3 * s.length + (if m = .esc then 3 else 0)
  | [], m => by cases m <;> simp [lexcGo]
  | c :: s, m => by
    have hn := lexcGo_len_zeros s .normal
    have he := lexcGo_len_zeros s .esc
    have ha := lexcGo_len_zeros s .inAt
    simp at hn he ha
    cases m <;> simp only [lexcGo] <;> split_ifs <;> simp_all <;> omega

/-- Without `do_zeros` only `%0` grows, by four characters from two. -/
theorem lexcGo_len_plain : ∀ (s : Str) (m : Mode),
    (lexcGo false m s).1.length ≤ 3 * s.length + (if m = .esc then 3 else 0)
  | [], m => by cases m <;> simp [lexcGo]
  | c :: s, m => by
    have hn := lexcGo_len_plain s .normal
    have he := lexcGo_len_plain s .esc
    have ha := lexcGo_len_plain s .inAt
    simp at hn he ha
    cases m <;> simp only [lexcGo] <;> split_ifs <;> simp_all <;> omega

/-- `strip_percents` never writes outside its buffer, whatever the text. -/
theorem C48_buffer (z : Bool) (s : Str) : lexcStrip z s ≠ .undefined := by
  unfold lexcStrip
  cases z with
  | true =>
    have h := lexcGo_len_zeros s .normal
    simp at h
    simp only [if_true]
    rw [if_neg (by omega)]
    exact fun h => by cases h
  | false =>
    have h := lexcGo_len_plain s .normal
    simp at h
    simp only [Bool.false_eq_true, if_false]
    rw [if_neg (by omega)]
    exact fun h => by cases h

/-- A text that spells `x` is read as `x`. -/
theorem C48_strip {z : Bool} {s x : Str} (h : Spells z s x) : lexcStrip z s = .ok (some x) := by
  have hb := C48_buffer z s
  unfold lexcStrip at hb ⊢
  rw [lexcGo_spells h] at hb ⊢
  dsimp only at hb ⊢
  split_ifs at hb ⊢ <;> simp_all

example : Spells true "a%<0@F@%0".toList "a<@0@@F@@ZERO@".toList :=
  .plain (by decide) (by decide) (by decide) (.escaped (by decide) (.epsilon rfl
    (.block (w := ['F']) (by decide) (.literalZero .nil))))

theorem spells_or_stray (z : Bool) (s : Str) :
    (∃ x, Spells z s x) ∨ (∃ t x, s = t ++ ['%'] ∧ Spells z t x ∧ (lexcGo z .normal s).2 = true) := by
  induction hn : s.length using Nat.strongRecOn generalizing s with
  | _ n ih =>
    subst hn
    match s with
    | [] => exact .inl ⟨_, .nil⟩
    | c :: s =>
      by_cases h1 : c = '%'
      · subst h1
        match s with
        | [] => exact .inr ⟨[], [], rfl, .nil, by simp [lexcGo]⟩
        | d :: s =>
          by_cases h0 : d = '0'
          · subst h0
            rcases ih s.length (by simp only [List.length_cons]; omega) s rfl with ⟨x, h⟩ | ⟨t, x, e, h, f⟩
            · exact .inl ⟨_, .literalZero h⟩
            · exact .inr ⟨'%' :: '0' :: t, _, by simp [e], .literalZero h, by simpa [lexcGo] using f⟩
          · rcases ih s.length (by simp only [List.length_cons]; omega) s rfl with ⟨x, h⟩ | ⟨t, x, e, h, f⟩
            · exact .inl ⟨_, .escaped h0 h⟩
            · exact .inr ⟨'%' :: d :: t, _, by simp [e], .escaped h0 h, by simpa [lexcGo] using f⟩
      · by_cases h2 : c = '@'
        · subst h2
          by_cases hm : '@' ∈ s
          · obtain ⟨w, s', e, hw⟩ := List.eq_append_cons_of_mem hm
            subst e
            rcases ih s'.length (by simp; omega) s' rfl with ⟨x, h⟩ | ⟨t, x, e, h, f⟩
            · exact .inl ⟨_, .block hw h⟩
            · exact .inr ⟨'@' :: (w ++ '@' :: t), _, by simp [e], .block hw h,
                by simpa [lexcGo, lexcGo_block z _ _ hw] using f⟩
          · exact .inl ⟨_, .openBlock hm⟩
        · by_cases h3 : z = true ∧ c = '0'
          · obtain ⟨hz, hc⟩ := h3
            subst hz hc
            rcases ih s.length (by simp) s rfl with ⟨x, h⟩ | ⟨t, x, e, h, f⟩
            · exact .inl ⟨_, .epsilon rfl h⟩
            · exact .inr ⟨'0' :: t, _, by simp [e], .epsilon rfl h, by simpa [lexcGo] using f⟩
          · have h4 : z = true → c ≠ '0' := fun a b => h3 ⟨a, b⟩
            have h5 : (z && decide (c = '0')) = false := by
              cases z with
              | false => rfl
              | true => simp [h4 rfl]
            rcases ih s.length (by simp) s rfl with ⟨x, h⟩ | ⟨t, x, e, h, f⟩
            · exact .inl ⟨_, .plain h1 h2 h4 h⟩
            · exact .inr ⟨c :: t, _, by simp [e], .plain h1 h2 h4 h, by
                simp only [lexcGo, h1, h2, if_false, h5, Bool.false_eq_true]; exact f⟩

/-- Every text either spells something or is such a text followed by a stray percent, and then the null pointer is
returned. -/
theorem C48_strip_total (z : Bool) (s : Str) :
    (∃ x, Spells z s x ∧ lexcStrip z s = .ok (some x)) ∨
      (∃ t x, s = t ++ ['%'] ∧ Spells z t x ∧ lexcStrip z s = .ok none) := by
  rcases spells_or_stray z s with ⟨x, h⟩ | ⟨t, x, e, h, f⟩
  · exact .inl ⟨x, h, C48_strip h⟩
  · refine .inr ⟨t, x, e, h, ?_⟩
    have hb := C48_buffer z s
    unfold lexcStrip at hb ⊢
    dsimp only at hb ⊢
    split_ifs at hb ⊢ <;> simp_all

example : lexcStrip true "a%".toList = .ok none := by decide

/-! ### Adding and removing percents -/

/-- What `addPercents` makes of a character. -/
private def added (c : Char) : Str :=
  if c = '%' then ['%', '%'] else if c = '<' then ['%', '<'] else if c = '>' then ['%', '>'] else [c]

/-- The same after the first replacement of `stripPercents`. -/
private def marked (c : Char) : Str :=
  if c = '%' then "@PERCENT@".toList else if c = '<' then ['%', '<'] else if c = '>' then ['%', '>'] else [c]

/-- The same after the second replacement. -/
private def held (c : Char) : Str := if c = '%' then "@PERCENT@".toList else [c]

private theorem addPercents_eq (x : Str) : addPercents x = x.flatMap added := by
  unfold addPercents
  rw [replaceAll_char, replaceAll_char, replaceAll_char, List.flatMap_assoc, List.flatMap_assoc]
  congr 1
  funext c
  unfold added
  by_cases h1 : c = '%'
  · subst h1; decide
  · by_cases h2 : c = '<'
    · subst h2; decide
    · by_cases h3 : c = '>'
      · subst h3; decide
      · simp [h1, h2, h3]

private theorem marked_eq : ∀ x : Str,
    replaceGo ['%', '%'] "@PERCENT@".toList 0 (x.flatMap added) = x.flatMap marked
  | [] => by rw [List.flatMap_nil, replaceGo, List.flatMap_nil]
  | c :: x => by
    have ih := marked_eq x
    rw [List.flatMap_cons, List.flatMap_cons]
    by_cases h1 : c = '%'
    · subst h1
      rw [show added '%' = ['%', '%'] from rfl, replaceGo_match (by decide), ih]; rfl
    · have two : ∀ d : Char, d ≠ '%' → replaceGo ['%', '%'] "@PERCENT@".toList 0 (['%', d] ++ x.flatMap added) =
          ['%', d] ++ x.flatMap marked := by
        intro d hd
        rw [List.cons_append, List.cons_append, List.nil_append, replaceGo_step, replaceGo_step, ih]
        · rfl
        · rw [List.cons_prefix_cons]; exact fun h => hd h.1.symm
        · rw [List.cons_prefix_cons, List.cons_prefix_cons]; exact fun h => hd h.2.1.symm
      by_cases h2 : c = '<'
      · subst h2; exact two '<' (by decide)
      · by_cases h3 : c = '>'
        · subst h3; exact two '>' (by decide)
        · rw [show added c = [c] by unfold added; rw [if_neg h1, if_neg h2, if_neg h3],
            show marked c = [c] by unfold marked; rw [if_neg h1, if_neg h2, if_neg h3],
            List.cons_append, List.nil_append, replaceGo_step, ih]
          · rfl
          · rw [List.cons_prefix_cons]; exact fun h => h1 h.1.symm

private theorem held_eq (x : Str) : replaceAll (x.flatMap marked) ['%'] [] = x.flatMap held := by
  rw [replaceAll_char, List.flatMap_assoc]
  congr 1
  funext c
  unfold marked held
  by_cases h1 : c = '%'
  · subst h1; decide
  · by_cases h2 : c = '<'
    · subst h2; decide
    · by_cases h3 : c = '>'
      · subst h3; decide
      · rw [if_neg h1, if_neg h1, if_neg h2, if_neg h3, List.flatMap_cons, if_neg h1]; rfl

private theorem held_prefix : ∀ (p x : Str), '@' ∉ p → p ++ ['@'] <+: x.flatMap held →
    p ++ ['@'] <+: x ∨ p ++ ['%'] <+: x
  | p, [], _, h => by cases p <;> simp at h
  | [], d :: x, _, h => by
    rw [List.flatMap_cons] at h
    by_cases hd : d = '%'
    · subst hd; exact .inr (by simp)
    · rw [show held d = [d] from if_neg hd, List.cons_append, List.nil_append, List.cons_prefix_cons] at h
      rw [← h.1]; exact .inl (by simp)
  | c :: p, d :: x, hp, h => by
    rw [List.flatMap_cons] at h
    by_cases hd : d = '%'
    · subst hd
      rw [show held '%' = '@' :: "PERCENT@".toList from by decide, List.cons_append, List.cons_append,
        List.cons_prefix_cons] at h
      exact absurd (by rw [h.1]; simp) hp
    · rw [show held d = [d] from if_neg hd, List.cons_append, List.cons_append, List.nil_append,
        List.cons_prefix_cons] at h
      obtain ⟨rfl, h⟩ := h
      rcases held_prefix p x (fun h => hp (by simp [h])) h with h | h
      · exact .inl (by rw [List.cons_append, List.cons_prefix_cons]; exact ⟨rfl, h⟩)
      · exact .inr (by rw [List.cons_append, List.cons_prefix_cons]; exact ⟨rfl, h⟩)

private theorem unheld : ∀ x : Str, ¬ "@PERCENT@".toList <:+: x → ¬ "@PERCENT%".toList <:+: x →
    replaceGo "@PERCENT@".toList ['%'] 0 (x.flatMap held) = x
  | [], _, _ => by rw [List.flatMap_nil, replaceGo]
  | c :: x, h1, h2 => by
    have ih := unheld x (fun h => h1 (h.trans (List.suffix_cons c x).isInfix))
      (fun h => h2 (h.trans (List.suffix_cons c x).isInfix))
    rw [List.flatMap_cons]
    by_cases hc : c = '%'
    · subst hc
      rw [show held '%' = "@PERCENT@".toList from if_pos rfl, replaceGo_match (by decide), ih]; rfl
    · rw [show held c = [c] from if_neg hc, List.cons_append, List.nil_append, replaceGo_step, ih]
      intro h
      rw [show "@PERCENT@".toList = '@' :: (['P', 'E', 'R', 'C', 'E', 'N', 'T'] ++ ['@']) from by decide,
        List.cons_prefix_cons] at h
      obtain ⟨rfl, h⟩ := h
      rcases held_prefix _ x (by decide) h with h | h
      · apply h1
        rw [show "@PERCENT@".toList = '@' :: (['P', 'E', 'R', 'C', 'E', 'N', 'T'] ++ ['@']) from by decide]
        exact (List.cons_prefix_cons.mpr ⟨rfl, h⟩).isInfix
      · apply h2
        rw [show "@PERCENT%".toList = '@' :: (['P', 'E', 'R', 'C', 'E', 'N', 'T'] ++ ['%']) from by decide]
        exact (List.cons_prefix_cons.mpr ⟨rfl, h⟩).isInfix

/-- Adding and then removing percents gives the same text.  Missing: texts in which the placeholder `@PERCENT@`, or its
beginning followed by a percent, occurs; see `C48_placeholder_violated`. -/
theorem C48_roundtrip_partial (x : Str) (h1 : ¬ "@PERCENT@".toList <:+: x) (h2 : ¬ "@PERCENT%".toList <:+: x) :
    stripPercents (addPercents x) = x := by
  unfold stripPercents
  rw [addPercents_eq, show replaceAll (x.flatMap added) ['%', '%'] "@PERCENT@".toList = x.flatMap marked from
    marked_eq x, held_eq]
  exact unheld x h1 h2

example : addPercents "5%<a>".toList = "5%%%<a%>".toList ∧ stripPercents "5%%%<a%>".toList = "5%<a>".toList := by
  decide +kernel

/-- The placeholder is read as a percent, also where it only arises from the text before an escaped percent. -/
theorem C48_placeholder_violated :
    stripPercents (addPercents "@PERCENT@".toList) = ['%'] ∧
    stripPercents (addPercents "@PERCENT%".toList) = "%PERCENT@".toList := by
  decide +kernel

/-! ## C49: white space -/

theorem stripBack_spaces (t : Str) {c : Char} (hc : isSpace c = false) : ∀ (b : Str),
    (∀ d ∈ b, isSpace d = true) → ∀ r : Str,
      stripBack (t ++ c :: (b ++ r)) (t.length + 1 + b.length) = .ok (t ++ [c]) := by
  intro b
  induction b using List.reverseRecOn with
  | nil =>
    intro _ r
    have h : (t ++ c :: ([] ++ r))[t.length]? = some c := by simp
    simp only [List.length_nil, Nat.add_zero, stripBack, h, hc]
    simp [List.take_append]
  | append_singleton b d ih =>
    intro hb r
    have hd : isSpace d = true := hb d (by simp)
    have e : t.length + 1 + (b ++ [d]).length = (t.length + 1 + b.length) + 1 := by simp; omega
    have h : (t ++ c :: (b ++ [d] ++ r))[t.length + 1 + b.length]? = some d := by
      rw [List.getElem?_append_right (by omega)]
      have : t.length + 1 + b.length - t.length = b.length + 1 := by omega
      simp [this]
    rw [e]
    simp only [stripBack, h, hd, if_true]
    have := ih (fun x hx => hb x (by simp [hx])) ([d] ++ r)
    simpa using this

/-- A text that has a character other than white space is returned without the white space around it: `a` and `b` are
white space, and `m` neither begins nor ends with white space.  Missing: texts of white space only, see
`C49_violated`. -/
theorem C49_partial (a m b : Str) (ha : ∀ c ∈ a, isSpace c = true) (hb : ∀ c ∈ b, isSpace c = true) (hm : m ≠ [])
    (h1 : ∀ c, m.head? = some c → isSpace c = false) (h2 : ∀ c, m.getLast? = some c → isSpace c = false) :
    strstrip (a ++ m ++ b) = .ok m := by
  obtain ⟨c0, m0, rfl⟩ : ∃ c m', m = c :: m' := by cases m with
    | nil => exact absurd rfl hm
    | cons c m => exact ⟨c, m, rfl⟩
  have hc0 := h1 c0 rfl
  have hd : (a ++ (c0 :: m0) ++ b).dropWhile isSpace = (c0 :: m0) ++ b := by
    rw [List.append_assoc, List.dropWhile_append_of_pos ha]
    simp [hc0]
  unfold strstrip
  rw [if_neg (by simp)]
  dsimp only
  rw [hd]
  obtain ⟨t, c, e⟩ : ∃ t c, c0 :: m0 = t ++ [c] := ⟨_, _, (List.dropLast_append_getLast hm).symm⟩
  rw [e]
  have hc : isSpace c = false := h2 c (by rw [e]; simp)
  have := stripBack_spaces t hc b hb []
  simpa [Nat.add_assoc, Nat.add_comm 1] using this

/-- The empty text is returned as it is. -/
theorem C49_empty : strstrip [] = .ok [] := rfl

/-- Every other text of white space only makes the code read before its buffer. -/
theorem C49_violated (s : Str) (hs : s ≠ []) (h : ∀ c ∈ s, isSpace c = true) : strstrip s = .undefined := by
  have hd : s.dropWhile isSpace = [] := by
    rw [List.dropWhile_eq_nil_iff]; exact h
  unfold strstrip
  rw [if_neg hs]
  dsimp only
  rw [hd]
  rfl

example : strstrip " \ta b\n ".toList = .ok "a b".toList := by decide
example : strstrip " \n".toList = .undefined := by decide

/-! ## C50: regular expressions -/

theorem xreGo_add : ∀ x : Str, '%' ∉ x → xreGo (x.flatMap fun c => if c ∈ restricted then ['%', c] else [c]) = x
  | [], _ => rfl
  | c :: x, h => by
    have hc : c ≠ '%' := fun e => h (by simp [e])
    have hx : '%' ∉ x := fun e => h (by simp [e])
    have ih := xreGo_add x hx
    rw [List.flatMap_cons]
    by_cases hr : c ∈ restricted
    · rw [if_pos hr]
      simp [xreGo, ih]
    · rw [if_neg hr]
      cases e : x.flatMap (fun c => if c ∈ restricted then ['%', c] else [c]) with
      | nil => rw [e] at ih; simp [xreGo, hc, ← ih]
      | cons d s => rw [e] at ih; simp [xreGo, hc, ih]

theorem xreGo_length : ∀ s : Str, (xreGo s).length ≤ s.length := by
  intro s
  fun_induction xreGo s <;> simp_all <;> omega

theorem add_length : ∀ s : Str,
    (s.flatMap fun c => if c ∈ restricted then ['%', c] else [c]).length ≤ s.length * 2
  | [] => by simp
  | c :: s => by
    have := add_length s
    rw [List.flatMap_cons, List.length_append, List.length_cons]
    split_ifs <;> simp only [List.length_cons, List.length_nil] <;> omega

/-- Adding percents never writes outside the buffer. -/
theorem C50_add_buffer (x : Str) : ∃ y, xreAdd x = .ok y := by
  unfold xreAdd
  dsimp only
  rw [if_neg (by have := add_length x; omega)]
  exact ⟨_, rfl⟩

/-- Stripping percents ends on every text and never writes outside the buffer. -/
theorem C50_strip_buffer (s : Str) : ∃ y, xreStrip s = .ok y := by
  unfold xreStrip
  dsimp only
  rw [if_neg (by have := xreGo_length s; omega)]
  exact ⟨_, rfl⟩

/-- Adding and then stripping percents gives the same symbol.  Missing: symbols that contain a percent, see
`C50_violated`. -/
theorem C50_partial (x : Str) (h : '%' ∉ x) : ∃ y, xreAdd x = .ok y ∧ xreStrip y = .ok x := by
  obtain ⟨y, hy⟩ := C50_add_buffer x
  refine ⟨y, hy, ?_⟩
  have e : y = x.flatMap fun c => if c ∈ restricted then ['%', c] else [c] := by
    unfold xreAdd at hy
    dsimp only at hy
    split at hy
    · cases hy
    · exact (Outcome.ok.inj hy).symm
  obtain ⟨r, hr⟩ := C50_strip_buffer y
  have e2 : r = xreGo y := by
    unfold xreStrip at hr
    dsimp only at hr
    split at hr
    · cases hr
    · exact (Outcome.ok.inj hr).symm
  rw [hr, e2, e, xreGo_add x h]

example : xreAdd "a+b".toList = .ok "a%+b".toList := by decide

/-- A percent is not escaped by adding percents, so stripping loses it. -/
theorem C50_violated : (∃ y, xreAdd ['%'] = .ok y ∧ xreStrip y = .ok []) ∧
    (∃ y, xreAdd ['%', 'a'] = .ok y ∧ xreStrip y = .ok ['a']) :=
  ⟨⟨['%'], by decide, by decide⟩, ⟨['%', 'a'], by decide, by decide⟩⟩

end Hfst.Escapes
