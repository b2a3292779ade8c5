import Verif.Model.PairString
import Mathlib.Tactic.ByContra
import Mathlib.Data.List.Infix

/-!
# Pair strings: properties (C14)
-/
namespace Hfst.PairString
open Hfst.Basic

/-! ## Specification -/

/-- Number of backslashes at the end of `a`. -/
def trail (a : Str) : Nat := (a.reverse.takeWhile (· = '\\')).length

/-- `s` contains a colon that is not escaped: an even number of backslashes stands before it. -/
def UnescapedColon (s : Str) : Prop := ∃ a b, s = a ++ ':' :: b ∧ trail a % 2 = 0

/-- What a token stands for: `\\` for a backslash, the codes for space and colon, and otherwise the token without the
backslashes that escape its characters. -/
def spelled (t : Str) : Str :=
  if t = ['\\', '\\'] then ['\\']
  else if t = "@_SPACE_@".toList then [' ']
  else if t = "@_COLON_@".toList then [':']
  else t.filter (· ≠ '\\')

/-- The symbol for a token; `eps` is the spelling of epsilon. -/
def sym (eps t : Str) : Str := if t = [] ∨ t = eps then epsilon else spelled t

/-- A pair string is made of single symbols and pairs `a:b`. -/
inductive Item where
  | one (a : Str)
  | two (a b : Str)

/-- The tokens that are symbols (not the colon of a pair). -/
def Item.symbols : Item → List Str
  | .one a => [a]
  | .two a b => [a, b]

/-- The symbol pair an item stands for. -/
def Item.pair (eps : Str) : Item → Str × Str
  | .one a => (sym eps a, sym eps a)
  | .two a b => (sym eps a, sym eps b)

/-- How tokens are grouped from the left: `a:b` is a pair, anything else a single symbol. -/
inductive Groups : List Str → List Item → Prop
  | nil : Groups [] []
  | two {a b : Str} {ts : List Str} {is : List Item} : Groups ts is → Groups (a :: [':'] :: b :: ts) (.two a b :: is)
  | one {a : Str} {ts : List Str} {is : List Item} : (¬ ∃ b r, ts = [':'] :: b :: r) → Groups ts is →
      Groups (a :: ts) (.one a :: is)

/-- Tokens the reader treats as documented: `\\` alone, the codes for space and colon alone, or a token without a pair of
backslashes and without codes; not a single backslash; and epsilon is not spelled with a backslash. -/
structure Tidy (eps t : Str) : Prop where
  simple : t = ['\\', '\\'] ∨ t = "@_SPACE_@".toList ∨ t = "@_COLON_@".toList ∨
    (¬ ['\\', '\\'] <:+: t ∧ ¬ "@_".toList <:+: t.filter (· ≠ '\\'))
  notLone : t ≠ ['\\']
  notEps : spelled t = eps → t = eps

/-- Spellings of epsilon that are not changed by unescaping. -/
structure TidyEps (eps : Str) : Prop where
  same : spelled eps = eps
  noColon : ':' ∉ eps

/-! ## Lemmas -/

private theorem findStr_none {needle : Str} : ∀ {s : Str}, ¬ needle <:+: s → findStr needle s = none
  | [], h => by
    rw [findStr, if_neg]
    rintro rfl; exact h (List.infix_refl _)
  | c :: s, h => by
    rw [List.infix_cons_iff, not_or] at h
    rw [findStr, if_neg (by rw [List.isPrefixOf_iff_prefix]; exact h.1), findStr_none h.2]; rfl

private theorem findStr_one {s : Str} {p : Nat} (h : findStr ['\\'] s = some p) :
    ∃ a b, s = a ++ '\\' :: b ∧ a.length = p := by
  induction s generalizing p with
  | nil => simp [findStr] at h
  | cons c s ih =>
    rw [findStr] at h
    split at h
    · rename_i hc
      rw [List.isPrefixOf_iff_prefix] at hc
      obtain ⟨t, ht⟩ := hc
      simp only [Option.some.injEq] at h
      exact ⟨[], t, by rw [← ht]; rfl, by simp [← h]⟩
    · rw [Option.map_eq_some_iff] at h
      obtain ⟨k, hk, rfl⟩ := h
      obtain ⟨a, b, rfl, rfl⟩ := ih hk
      exact ⟨c :: a, b, rfl, rfl⟩

private theorem replaceLoop_none {needle : Str} (repl : Str) (n : Nat) {s : Str} (h : ¬ needle <:+: s) :
    replaceLoop needle repl n s = s := by
  cases n with
  | zero => rfl
  | succ n => rw [replaceLoop, findStr_none h]

private theorem replaceLoop_backslash : ∀ (n : Nat) (s : Str), s.length ≤ n →
    replaceLoop ['\\'] [] n s = s.filter (· ≠ '\\')
  | 0, s, h => by
    have : s = [] := List.length_eq_zero_iff.mp (by omega)
    subst this; rfl
  | n + 1, s, h => by
    rw [replaceLoop]
    cases hf : findStr ['\\'] s with
    | none =>
      simp only []
      rw [List.filter_eq_self.mpr]
      intro c hc
      by_contra hcon
      have : c = '\\' := by simpa using hcon
      subst this
      obtain ⟨a, b, rfl⟩ := List.append_of_mem hc
      clear h hc hcon
      induction a with
      | nil => simp [findStr] at hf
      | cons d a ih =>
        rw [List.cons_append, findStr] at hf
        split at hf
        · simp at hf
        · exact ih (by simpa using hf)
    | some p =>
      simp only []
      obtain ⟨a, b, rfl, rfl⟩ := findStr_one hf
      rw [List.take_left, List.append_nil, show (['\\'] : Str).length = 1 from rfl,
        show a ++ '\\' :: b = (a ++ ['\\']) ++ b by simp, List.drop_left' (by simp)]
      rw [replaceLoop_backslash n (a ++ b) (by simp at h ⊢; omega)]
      simp [List.filter_append]

private theorem strayColGo_iff : ∀ (s : Str) (p2 p1 : Option Char), strayColGo p2 p1 s = true ↔
    ∃ a b, s = a ++ ':' :: b ∧ ((([p2, p1] ++ a.map some).reverse[0]? ≠ some (some '\\')) ∨
      (([p2, p1] ++ a.map some).reverse[1]? = some (some '\\')))
  | [], p2, p1 => by simp [strayColGo]
  | c :: s, p2, p1 => by
    rw [strayColGo]
    have ih := strayColGo_iff s p1 (some c)
    have hrev : ∀ a : Str, ∀ k, k < 2 → (([p2, p1] ++ (c :: a).map some).reverse)[k]? =
        (([p1, some c] ++ a.map some).reverse)[k]? := by
      intro a k hk
      rw [show [p2, p1] ++ (c :: a).map some = p2 :: ([p1, some c] ++ a.map some) by simp, List.reverse_cons,
        List.getElem?_append_left (by simp; omega)]
    split
    · rename_i h
      simp only [Bool.and_eq_true, decide_eq_true_eq, Bool.or_eq_true] at h
      simp only [true_iff]
      obtain ⟨rfl, h⟩ := h
      exact ⟨[], s, rfl, by simpa using h⟩
    · rename_i h
      simp only [Bool.and_eq_true, decide_eq_true_eq, Bool.or_eq_true] at h
      rw [ih]
      constructor
      · rintro ⟨a, b, rfl, hh⟩
        refine ⟨c :: a, b, rfl, ?_⟩
        rw [hrev a 0 (by omega), hrev a 1 (by omega)]; exact hh
      · rintro ⟨a, b, hs, hh⟩
        cases a with
        | nil =>
          simp only [List.nil_append, List.cons.injEq] at hs
          exact absurd ⟨hs.1, by simpa using hh⟩ h
        | cons d a =>
          simp only [List.cons_append, List.cons.injEq] at hs
          obtain ⟨rfl, rfl⟩ := hs
          refine ⟨a, b, rfl, ?_⟩
          rw [hrev a 0 (by omega), hrev a 1 (by omega)] at hh; exact hh

private theorem strayCol_iff (s : Str) : strayCol s = true ↔
    ∃ a b, s = a ++ ':' :: b ∧ ((a.reverse[0]? ≠ some '\\') ∨ (a.reverse[1]? = some '\\')) := by
  unfold strayCol
  rw [strayColGo_iff]
  have key : ∀ a : Str, (((([none, none] ++ a.map some).reverse)[0]? ≠ some (some '\\')) ↔ a.reverse[0]? ≠ some '\\') ∧
      (((([none, none] ++ a.map some).reverse)[1]? = some (some '\\')) ↔ a.reverse[1]? = some '\\') := by
    intro a
    rw [List.reverse_append, ← List.map_reverse]
    match a.reverse with
    | [] => simp
    | [x] => simp
    | x :: y :: l => simp
  constructor
  · rintro ⟨a, b, h, hh⟩
    exact ⟨a, b, h, by rw [(key a).1, (key a).2] at hh; exact hh⟩
  · rintro ⟨a, b, h, hh⟩
    exact ⟨a, b, h, by rw [(key a).1, (key a).2]; exact hh⟩

/-- Every token with an unescaped colon is refused. -/
theorem C14_colon (s : Str) (h : UnescapedColon s) : unescape s = .throws := by
  obtain ⟨a, b, hs, ht⟩ := h
  have : strayCol s = true := by
    rw [strayCol_iff]
    refine ⟨a, b, hs, ?_⟩
    unfold trail at ht
    match hr : a.reverse with
    | [] => simp
    | [x] =>
      left
      rw [hr] at ht
      rintro h
      simp only [List.getElem?_cons_zero, Option.some.injEq] at h
      subst h
      simp at ht
    | x :: y :: l =>
      rw [hr] at ht
      by_cases hx : x = '\\'
      · by_cases hy : y = '\\'
        · right; simp [hy]
        · simp [hx, hy] at ht
      · left; simpa using hx
  unfold unescape
  rw [if_pos this]

private theorem not_stray {s : Str} (h : ¬ UnescapedColon s) (hs : ¬ ['\\', '\\'] <:+: s) : strayCol s = false := by
  rw [← Bool.not_eq_true, strayCol_iff]
  rintro ⟨a, b, rfl, hh⟩
  apply h
  refine ⟨a, b, rfl, ?_⟩
  unfold trail
  match hr : a.reverse with
  | [] => simp
  | [x] =>
    rw [hr] at hh
    simp only [List.getElem?_cons_zero, ne_eq, Option.some.injEq] at hh
    rcases hh with hh | hh
    · simp [hh]
    · simp at hh
  | x :: y :: l =>
    rw [hr] at hh
    by_cases hx : x = '\\'
    · rcases hh with hh | hh
      · exact absurd (by simp [hx]) hh
      · simp only [List.getElem?_cons_succ, List.getElem?_cons_zero, Option.some.injEq] at hh
        subst hx hh
        have : a = l.reverse ++ ['\\', '\\'] := by
          rw [← List.reverse_reverse a, hr]; simp
        exact absurd ⟨l.reverse, ':' :: b, by rw [this]⟩ hs
    · simp [hx]

private theorem no_code {s code : Str} (hs : ¬ "@_".toList <:+: s) (hc : "@_".toList <:+: code) : ¬ code <:+: s :=
  fun h => hs (hc.trans h)

/-- A token without an unescaped colon is unescaped as documented. -/
theorem C14_unescape {eps t : Str} (h : Tidy eps t) (hc : ¬ UnescapedColon t) : unescape t = .ok (spelled t) := by
  rcases h.simple with rfl | rfl | rfl | ⟨h1, h2⟩
  · decide +kernel
  · decide +kernel
  · decide +kernel
  · unfold unescape spelled
    rw [if_neg (by rw [not_stray hc h1]; simp)]
    by_cases hb : t = ['\\', '\\']
    · exact absurd (hb ▸ List.infix_refl _) h1
    rw [if_neg hb, if_neg hb]
    have hk : ∀ code : Str, t = code → code.filter (· ≠ '\\') = code → "@_".toList <:+: code → False := by
      rintro code rfl hf hi
      rw [hf] at h2; exact h2 hi
    rw [if_neg fun e => hk _ e (by decide) ⟨[], "SPACE_@".toList, by decide⟩,
      if_neg fun e => hk _ e (by decide) ⟨[], "COLON_@".toList, by decide⟩]
    have e1 : replaceEach t ['\\', '\\'] "@_BACKSLASH_@".toList = t := replaceLoop_none _ _ h1
    have e2 : replaceEach t ['\\'] [] = t.filter (· ≠ '\\') := replaceLoop_backslash _ _ (Nat.le_refl _)
    have e3 : replaceEach (t.filter (· ≠ '\\')) "@_BACKSLASH_@".toList [] = t.filter (· ≠ '\\') :=
      replaceLoop_none _ _ (no_code h2 ⟨[], "BACKSLASH_@".toList, by decide⟩)
    have e4 : replaceEach (t.filter (· ≠ '\\')) "@_SPACE_@".toList " ".toList = t.filter (· ≠ '\\') :=
      replaceLoop_none _ _ (no_code h2 ⟨[], "SPACE_@".toList, by decide⟩)
    have e5 : replaceEach (t.filter (· ≠ '\\')) "@_TAB_@".toList "   ".toList = t.filter (· ≠ '\\') :=
      replaceLoop_none _ _ (no_code h2 ⟨[], "TAB_@".toList, by decide⟩)
    have e6 : replaceEach (t.filter (· ≠ '\\')) "@_COLON_@".toList ":".toList = t.filter (· ≠ '\\') :=
      replaceLoop_none _ _ (no_code h2 ⟨[], "COLON_@".toList, by decide⟩)
    simp only [e1, e2, e3, e4, e5, e6]

example : Tidy "0".toList "\\:x".toList :=
  ⟨Or.inr (Or.inr (Or.inr ⟨by decide, by decide⟩)), by decide, by decide⟩
example : UnescapedColon "a\\\\:b".toList := ⟨"a\\\\".toList, "b".toList, by decide, by decide⟩

private theorem spelled_nil {t : Str} {eps : Str} (h : Tidy eps t) (hs : spelled t = []) : t = [] := by
  rcases h.simple with rfl | rfl | rfl | ⟨h1, _⟩
  · exact absurd hs (by decide)
  · exact absurd hs (by decide)
  · exact absurd hs (by decide)
  · unfold spelled at hs
    split at hs
    · simp at hs
    split at hs
    · simp at hs
    split at hs
    · simp at hs
    · rw [List.filter_eq_nil_iff] at hs
      match t with
      | [] => rfl
      | [c] =>
        have : c = '\\' := by simpa using hs c (by simp)
        exact absurd (by rw [this]) h.notLone
      | c :: d :: l =>
        have hc : c = '\\' := by simpa using hs c (by simp)
        have hd : d = '\\' := by simpa using hs d (by simp)
        subst hc hd
        exact absurd ⟨[], l, rfl⟩ h1

private theorem symAfter_ok {eps t : Str} (he : TidyEps eps) (h : Tidy eps t) (hc : ¬ UnescapedColon t) :
    symAfter eps t = .ok (sym eps t) := by
  unfold symAfter sym
  rw [C14_unescape h hc]
  simp only []
  by_cases h1 : t = []
  · subst h1
    rw [if_pos (Or.inl (by decide)), if_pos (Or.inl rfl)]
  by_cases h2 : t = eps
  · rw [if_pos (Or.inr (by rw [h2]; exact he.same)), if_pos (Or.inr h2)]
  · rw [if_neg, if_neg (by rw [not_or]; exact ⟨h1, h2⟩)]
    rw [not_or]
    exact ⟨fun h' => h1 (spelled_nil h h'), fun h' => h2 (h.notEps h')⟩

private theorem symBefore_ok {eps t : Str} (h : Tidy eps t) (hc : ¬ UnescapedColon t) :
    symBefore eps t = .ok (sym eps t) := by
  unfold symBefore sym
  split
  · rfl
  · exact C14_unescape h hc

private theorem symAfter_throws {t : Str} (eps : Str) (hc : UnescapedColon t) : symAfter eps t = .throws := by
  unfold symAfter; rw [C14_colon t hc]

private theorem symBefore_throws {eps t : Str} (he : TidyEps eps) (hc : UnescapedColon t) : symBefore eps t = .throws := by
  unfold symBefore
  rw [if_neg, C14_colon t hc]
  obtain ⟨a, b, rfl, _⟩ := hc
  rintro (h | h)
  · simp at h
  · exact he.noColon (by rw [← h]; simp)

/-- Every token sequence is grouped in exactly one way. -/
theorem C14_groups (ts : List Str) : ∃ is, Groups ts is ∧ ∀ is', Groups ts is' → is' = is := by
  induction hn : ts.length using Nat.strongRecOn generalizing ts with
  | _ n ih =>
    match ts with
    | [] => exact ⟨[], .nil, fun is' h => by cases h; rfl⟩
    | a :: ts =>
      by_cases h : ∃ b r, ts = [':'] :: b :: r
      · obtain ⟨b, r, rfl⟩ := h
        obtain ⟨is, h1, h2⟩ := ih r.length (by rw [← hn]; simp; omega) r rfl
        refine ⟨.two a b :: is, .two h1, ?_⟩
        intro is' h'
        cases h' with
        | two h' => rw [h2 _ h']
        | one hno _ => exact absurd ⟨b, r, rfl⟩ hno
      · obtain ⟨is, h1, h2⟩ := ih ts.length (by rw [← hn]; simp) ts rfl
        refine ⟨.one a :: is, .one h h1, ?_⟩
        intro is' h'
        cases h' with
        | two h' => exact absurd ⟨_, _, rfl⟩ h
        | one _ h' => rw [h2 _ h']

private theorem makePairs_one (eps : Str) {a : Str} {ts : List Str} (h : ¬ ∃ b r, ts = [':'] :: b :: r) :
    makePairs eps (a :: ts) = consPair (symAfter eps a) (symAfter eps a) (makePairs eps ts) := by
  match ts with
  | [] => rw [makePairs, makePairs]
  | [b] => rw [makePairs, makePairs]
  | c :: b :: r =>
    rw [makePairs, if_neg]
    rintro rfl; exact h ⟨b, r, rfl⟩

/-- **C14** (pair strings, part).  The tokens of a pair string are grouped from the left into pairs `a:b` and single
symbols; the result has one pair for each of them, and the string is refused exactly if a symbol contains an unescaped
colon (a stray colon is such a symbol).  Missing: tokens that are not `Tidy` (see the `violated` theorems). -/
theorem C14_pairs_partial {eps : Str} (he : TidyEps eps) {ts : List Str} {is : List Item} (h : Groups ts is)
    (ht : ∀ i ∈ is, ∀ t ∈ i.symbols, Tidy eps t ∨ UnescapedColon t) :
    ((∃ i ∈ is, ∃ t ∈ i.symbols, UnescapedColon t) → makePairs eps ts = .throws) ∧
    ((¬ ∃ i ∈ is, ∃ t ∈ i.symbols, UnescapedColon t) → makePairs eps ts = .ok (is.map (Item.pair eps))) := by
  induction h with
  | nil => exact ⟨by simp, fun _ => rfl⟩
  | @two a b ts is _ ih =>
    obtain ⟨ih1, ih2⟩ := ih fun i hi => ht i (by simp [hi])
    have hta := ht (.two a b) (by simp) a (by simp [Item.symbols])
    have htb := ht (.two a b) (by simp) b (by simp [Item.symbols])
    rw [makePairs, if_pos rfl]
    by_cases ha : UnescapedColon a
    · rw [symBefore_throws he ha]
      refine ⟨fun _ => by simp [consPair], fun hn => absurd ⟨.two a b, by simp, a, by simp [Item.symbols], ha⟩ hn⟩
    by_cases hb : UnescapedColon b
    · rw [symBefore_throws he hb, symBefore_ok (hta.resolve_right ha) ha]
      refine ⟨fun _ => by simp [consPair], fun hn => absurd ⟨.two a b, by simp, b, by simp [Item.symbols], hb⟩ hn⟩
    rw [symBefore_ok (hta.resolve_right ha) ha, symBefore_ok (htb.resolve_right hb) hb]
    constructor
    · rintro ⟨i, hi, t, ht', hc⟩
      rw [List.mem_cons] at hi
      rcases hi with rfl | hi
      · simp only [Item.symbols, List.mem_cons, List.not_mem_nil, or_false] at ht'
        rcases ht' with rfl | rfl
        · exact absurd hc ha
        · exact absurd hc hb
      · rw [ih1 ⟨i, hi, t, ht', hc⟩]; rfl
    · intro hn
      rw [ih2 fun ⟨i, hi, t, h1, h2⟩ => hn ⟨i, by simp [hi], t, h1, h2⟩]
      rfl
  | @one a ts is hno _ ih =>
    obtain ⟨ih1, ih2⟩ := ih fun i hi => ht i (by simp [hi])
    have hta := ht (.one a) (by simp) a (by simp [Item.symbols])
    rw [makePairs_one eps hno]
    by_cases ha : UnescapedColon a
    · rw [symAfter_throws eps ha]
      refine ⟨fun _ => by simp [consPair], fun hn => absurd ⟨.one a, by simp, a, by simp [Item.symbols], ha⟩ hn⟩
    rw [symAfter_ok he (hta.resolve_right ha) ha]
    constructor
    · rintro ⟨i, hi, t, ht', hc⟩
      rw [List.mem_cons] at hi
      rcases hi with rfl | hi
      · simp only [Item.symbols, List.mem_cons, List.not_mem_nil, or_false] at ht'
        subst ht'; exact absurd hc ha
      · rw [ih1 ⟨i, hi, t, ht', hc⟩]; rfl
    · intro hn
      rw [ih2 fun ⟨i, hi, t, h1, h2⟩ => hn ⟨i, by simp [hi], t, h1, h2⟩]
      rfl

example : TidyEps "0".toList := ⟨by decide, by decide⟩
example : Groups ["a".toList, ":".toList, "b".toList, "c".toList, ":".toList]
    [.two "a".toList "b".toList, .one "c".toList, .one ":".toList] :=
  .two (.one (by rintro ⟨b, r, h⟩; simp at h) (.one (by simp) .nil))
example : makePairs "0".toList ["a".toList, ":".toList, "0".toList, "\\:".toList] =
    .ok [("a".toList, epsilon), (":".toList, ":".toList)] := by decide +kernel
example : makePairs "0".toList ["a".toList, ":".toList, "b".toList, "c".toList, ":".toList] = .throws := by decide +kernel

private theorem padOutputs_ok {eps : Str} (os : List Str) (h : ∀ t ∈ os, Tidy eps t ∧ ¬ UnescapedColon t) :
    padOutputs eps os = .ok (os.map fun b => (epsilon, sym eps b)) := by
  induction os with
  | nil => rfl
  | cons b os ih =>
    have hb := h b (by simp)
    rw [padOutputs, symBefore_ok hb.1 hb.2, ih fun t ht => h t (by simp [ht])]; rfl

private theorem padInputs_ok {eps : Str} (is : List Str) (h : ∀ t ∈ is, Tidy eps t ∧ ¬ UnescapedColon t) :
    padInputs eps is = .ok (is.map fun a => (sym eps a, epsilon)) := by
  induction is with
  | nil => rfl
  | cons b os ih =>
    have hb := h b (by simp)
    rw [padInputs, symBefore_ok hb.1 hb.2, ih fun t ht => h t (by simp [ht])]; rfl

private theorem makePairs2_ok {eps : Str} (he : TidyEps eps) : ∀ (is os : List Str),
    (∀ t ∈ is ++ os, Tidy eps t ∧ ¬ UnescapedColon t) → ∃ r, makePairs2 eps is os = .ok r ∧
      r.map (·.1) = is.map (sym eps) ++ List.replicate (os.length - is.length) epsilon ∧
      r.map (·.2) = os.map (sym eps) ++ List.replicate (is.length - os.length) epsilon
  | [], os, h => by
    refine ⟨os.map fun b => (epsilon, sym eps b), padOutputs_ok os (by simpa using h), ?_, ?_⟩
    · rw [List.map_map]; simp [Function.comp_def]
    · rw [List.map_map]; simp [Function.comp_def]
  | a :: is, [], h => by
    refine ⟨(a :: is).map fun b => (sym eps b, epsilon), padInputs_ok (a :: is) (by simpa using h), ?_, ?_⟩
    · rw [List.map_map]; simp [Function.comp_def]
    · rw [List.map_map]; simp [Function.comp_def, List.replicate_succ]
  | a :: is, b :: os, h => by
    obtain ⟨r, h1, h2, h3⟩ := makePairs2_ok he is os fun t ht => h t (by
      simp only [List.mem_append, List.mem_cons] at ht ⊢
      rcases ht with ht | ht
      · exact Or.inl (Or.inr ht)
      · exact Or.inr (Or.inr ht))
    have ha := h a (by simp)
    have hb := h b (by simp)
    refine ⟨(sym eps a, sym eps b) :: r, ?_, ?_, ?_⟩
    · rw [makePairs2, symAfter_ok he ha.1 ha.2, symAfter_ok he hb.1 hb.2, h1]; rfl
    · rw [List.map_cons, h2]; simp
    · rw [List.map_cons, h3]; simp

private theorem colon_unescaped : UnescapedColon [':'] := ⟨[], [], rfl, rfl⟩

/-- **C14** (string:string, part).  `left:right` gives all symbols of both sides in order, the shorter side padded with
epsilon at its end.  Missing: tokens that are not `Tidy`. -/
theorem C14_stringPair_partial {eps : Str} (he : TidyEps eps) (left right : List Str)
    (h : ∀ t ∈ left ++ right, Tidy eps t ∧ ¬ UnescapedColon t) :
    ∃ r, tokenizeStringPair eps false (left ++ [':'] :: right) = .ok r ∧
      r.map (·.1) = left.map (sym eps) ++ List.replicate (right.length - left.length) epsilon ∧
      r.map (·.2) = right.map (sym eps) ++ List.replicate (left.length - right.length) epsilon := by
  have hl : ∀ t ∈ left, (decide (t ≠ [':'])) = true := by
    intro t ht
    have := (h t (by simp [ht])).2
    simp only [decide_eq_true_eq]
    rintro rfl; exact this colon_unescaped
  obtain ⟨r, h1, h2, h3⟩ := makePairs2_ok he left right h
  refine ⟨r, ?_, h2, h3⟩
  unfold tokenizeStringPair
  simp only [Bool.false_eq_true, if_false]
  rw [if_pos (by simp)]
  have e1 : (left ++ [':'] :: right).takeWhile (fun t => decide (t ≠ [':'])) = left := by
    rw [List.takeWhile_append_of_pos hl, List.takeWhile_cons, if_neg (by simp), List.append_nil]
  have e2 : (left ++ [':'] :: right).dropWhile (fun t => decide (t ≠ [':'])) = [':'] :: right := by
    rw [List.dropWhile_append_of_pos hl, List.dropWhile_cons, if_neg (by simp)]
  rw [e1, e2]
  exact h1

/-- **C14** (string:string without a colon, part): every symbol is paired with itself. -/
theorem C14_stringPair_identity_partial {eps : Str} (he : TidyEps eps) (ts : List Str)
    (h : ∀ t ∈ ts, Tidy eps t ∧ ¬ UnescapedColon t) :
    tokenizeStringPair eps false ts = .ok (ts.map fun t => (sym eps t, sym eps t)) := by
  have hno : [':'] ∉ ts := fun hm => (h _ hm).2 colon_unescaped
  unfold tokenizeStringPair
  simp only [Bool.false_eq_true, if_false]
  rw [if_neg hno]
  induction ts with
  | nil => rfl
  | cons t ts ih =>
    have ht := h t (by simp)
    rw [makePairs2, symAfter_ok he ht.1 ht.2, ih (fun t ht => h t (by simp [ht])) (fun hm => hno (by simp [hm]))]
    rfl

/-- **C14** (string:string, refusal).  A second colon that is not escaped is refused. -/
theorem C14_stringPair_refused {eps : Str} (he : TidyEps eps) (left right : List Str)
    (hl : ∀ t ∈ left, Tidy eps t ∧ ¬ UnescapedColon t) (hr : ∀ t ∈ right, Tidy eps t ∨ UnescapedColon t)
    (h : ∃ t ∈ right, UnescapedColon t) : tokenizeStringPair eps false (left ++ [':'] :: right) = .throws := by
  have hl' : ∀ t ∈ left, (decide (t ≠ [':'])) = true := by
    intro t ht
    have := (hl t ht).2
    simp only [decide_eq_true_eq]
    rintro rfl; exact this colon_unescaped
  unfold tokenizeStringPair
  simp only [Bool.false_eq_true, if_false]
  rw [if_pos (by simp)]
  have e1 : (left ++ [':'] :: right).takeWhile (fun t => decide (t ≠ [':'])) = left := by
    rw [List.takeWhile_append_of_pos hl', List.takeWhile_cons, if_neg (by simp), List.append_nil]
  have e2 : (left ++ [':'] :: right).dropWhile (fun t => decide (t ≠ [':'])) = [':'] :: right := by
    rw [List.dropWhile_append_of_pos hl', List.dropWhile_cons, if_neg (by simp)]
  rw [e1, e2]
  show makePairs2 eps left right = .throws
  clear e1 e2 hl'
  induction right generalizing left with
  | nil => obtain ⟨t, ht, _⟩ := h; simp at ht
  | cons b os ih =>
    cases left with
    | nil =>
      rw [makePairs2, padOutputs]
      by_cases hb : UnescapedColon b
      · rw [symBefore_throws he hb]; rfl
      · have htb := (hr b (by simp)).resolve_right hb
        rw [symBefore_ok htb hb, show padOutputs eps os = .throws from ih [] (by simp) (fun t ht => hr t (by simp [ht])) ?_]
        · rfl
        · obtain ⟨t, ht, hc⟩ := h
          rw [List.mem_cons] at ht
          rcases ht with rfl | ht
          · exact absurd hc hb
          · exact ⟨t, ht, hc⟩
    | cons a is =>
      rw [makePairs2]
      have ha := hl a (by simp)
      rw [symAfter_ok he ha.1 ha.2]
      by_cases hb : UnescapedColon b
      · rw [symAfter_throws eps hb]; rfl
      · have htb := (hr b (by simp)).resolve_right hb
        rw [symAfter_ok he htb hb, ih is (fun t ht => hl t (by simp [ht])) (fun t ht => hr t (by simp [ht]))]
        · rfl
        · obtain ⟨t, ht, hc⟩ := h
          rw [List.mem_cons] at ht
          rcases ht with rfl | ht
          · exact absurd hc hb
          · exact ⟨t, ht, hc⟩

example : tokenizeStringPair "0".toList false ["a".toList, "b".toList, ":".toList, "c".toList] =
    .ok [("a".toList, "c".toList), ("b".toList, epsilon)] := by decide +kernel

/-! ## Input with spaces -/

/-- What spaces mean: words are separated by spaces and colons; colons are kept. -/
inductive Spaced : List Str → List Str → Prop
  | nil : Spaced [] []
  | space {ts r : List Str} : Spaced ts r → Spaced ([' '] :: ts) r
  | colon {ts r : List Str} : Spaced ts r → Spaced ([':'] :: ts) ([':'] :: r)
  | word {w ts r : List Str} : w.flatten ≠ [] → (∀ t ∈ w, t ≠ [' '] ∧ t ≠ [':']) →
      (ts = [] ∨ ts.head? = some [' '] ∨ ts.head? = some [':']) → Spaced ts r → Spaced (w ++ ts) (w.flatten :: r)

private theorem splitGo_word : ∀ (w : List Str) (cur : Str) (ts : List Str), (∀ t ∈ w, t ≠ [' '] ∧ t ≠ [':']) →
    splitGo cur (w ++ ts) = splitGo (cur ++ w.flatten) ts
  | [], cur, ts, _ => by simp
  | t :: w, cur, ts, h => by
    obtain ⟨h1, h2⟩ := h t (by simp)
    rw [List.cons_append, splitGo, if_neg (by simp [h1]), if_neg h1, if_neg (by simp [h2]), if_neg h2,
      splitGo_word w _ ts fun t ht => h t (by simp [ht])]
    simp

private theorem splitGo_stop {cur : Str} (hc : cur ≠ []) {ts : List Str}
    (h : ts = [] ∨ ts.head? = some [' '] ∨ ts.head? = some [':']) : splitGo cur ts = cur :: splitGo [] ts := by
  cases ts with
  | nil => rw [splitGo, splitGo, if_neg hc, if_pos rfl]
  | cons t ts =>
    simp only [List.head?_cons, Option.some.injEq, reduceCtorEq, false_or] at h
    rcases h with rfl | rfl
    · rw [splitGo, if_pos ⟨rfl, hc⟩, splitGo, if_neg (by simp), if_pos rfl]
    · rw [splitGo, if_neg (by simp), if_neg (by simp), if_pos ⟨rfl, hc⟩, splitGo, if_neg (by simp), if_neg (by simp),
        if_neg (by simp), if_pos rfl]

/-- **C14** (spaces).  With spaces, the symbols are exactly the words between spaces and colons. -/
theorem C14_spaces {ts r : List Str} (h : Spaced ts r) : splitAtSpaces ts = r := by
  unfold splitAtSpaces
  induction h with
  | nil => rfl
  | space _ ih => rw [splitGo, if_neg (by simp), if_pos rfl, ih]
  | colon _ ih => rw [splitGo, if_neg (by simp), if_neg (by simp), if_neg (by simp), if_pos rfl, ih]
  | word h1 h2 h3 _ ih => rw [splitGo_word _ _ _ h2, List.nil_append, splitGo_stop h1 h3, ih]

/-- Every sequence of tokens (a token is not empty) is read in this way. -/
theorem C14_spaces_total (ts : List Str) (hne : [] ∉ ts) : ∃ r, Spaced ts r := by
  induction hn : ts.length using Nat.strongRecOn generalizing ts with
  | _ n ih =>
    match ts with
    | [] => exact ⟨[], .nil⟩
    | t :: ts =>
      by_cases h1 : t = [' ']
      · obtain ⟨r, hr⟩ := ih ts.length (by rw [← hn]; simp) ts (fun h => hne (by simp [h])) rfl
        exact ⟨r, h1 ▸ .space hr⟩
      by_cases h2 : t = [':']
      · obtain ⟨r, hr⟩ := ih ts.length (by rw [← hn]; simp) ts (fun h => hne (by simp [h])) rfl
        exact ⟨[':'] :: r, h2 ▸ Spaced.colon hr⟩
      · let p : Str → Bool := fun t => decide (t ≠ [' '] ∧ t ≠ [':'])
        have hsplit : t :: ts = (t :: ts.takeWhile p) ++ ts.dropWhile p := by simp
        have hlen : (ts.dropWhile p).length ≤ ts.length := (List.dropWhile_sublist p).length_le
        obtain ⟨r, hr⟩ := ih (ts.dropWhile p).length (by rw [← hn]; simp; omega) _
          (fun h => hne (List.mem_cons_of_mem _ ((List.dropWhile_sublist p).subset h))) rfl
        refine ⟨(t :: ts.takeWhile p).flatten :: r, ?_⟩
        rw [hsplit]
        refine .word ?_ ?_ ?_ hr
        · intro h
          rw [List.flatten_cons, List.append_eq_nil_iff] at h
          exact hne (by simp [h.1])
        · intro x hx
          rw [List.mem_cons] at hx
          rcases hx with rfl | hx
          · exact ⟨h1, h2⟩
          · have := (List.all_takeWhile (p := p) (l := ts))
            rw [List.all_eq_true] at this
            simpa [p] using this x hx
        · cases hd : ts.dropWhile p with
          | nil => exact Or.inl rfl
          | cons x l =>
            have hx := List.head?_dropWhile_not p ts
            rw [hd] at hx
            simp only [List.head?_cons] at hx
            right
            rw [List.head?_cons]
            by_cases hx1 : x = [' ']
            · left; rw [hx1]
            · right
              by_contra hx2
              have : p x = true := by
                simp only [p, decide_eq_true_eq]
                exact ⟨hx1, fun h => hx2 (by rw [h])⟩
              rw [this] at hx; simp at hx

example : Spaced ["a".toList, "b".toList, " ".toList, " ".toList, "c".toList, ":".toList, "d".toList]
    ["ab".toList, "c".toList, ":".toList, "d".toList] :=
  .word (w := ["a".toList, "b".toList]) (by decide) (by decide) (by decide)
    (.space (.space (.word (w := ["c".toList]) (by decide) (by decide) (by decide)
      (.colon (.word (w := ["d".toList]) (by decide) (by decide) (by decide) .nil)))))

/-! ## Where the code differs -/

/-- **C14** (negation, escaped epsilon).  With epsilon spelled `0`, the escaped `\0` is a zero inside a pair but epsilon
as a single symbol. -/
theorem C14_escaped_epsilon_violated : makePairs "0".toList ["\\0".toList, ":".toList, "a".toList] =
    .ok [("0".toList, "a".toList)] ∧ makePairs "0".toList ["\\0".toList] = .ok [(epsilon, epsilon)] := by decide +kernel

/-- **C14** (negation, empty symbol).  With spaces, a backslash after the colon of a pair gives a pair with an empty
output symbol, which is neither refused nor epsilon. -/
theorem C14_empty_symbol_violated : tokenizePairString "0".toList true ["a".toList, ":".toList, "\\".toList] =
    .ok [("a".toList, [])] := by decide +kernel

/-- **C14** (negation, backslash).  With spaces, an escaped backslash inside a longer symbol is lost. -/
theorem C14_backslash_violated : tokenizePairString "0".toList true ["a".toList, "\\\\".toList, "b".toList] =
    .ok [("ab".toList, "ab".toList)] := by decide +kernel

/-- **C14** (negation, tab).  The code for a tab gives three spaces. -/
theorem C14_tab_violated : unescape "@_TAB_@".toList = .ok "   ".toList := by decide +kernel

/-- **C14** (negation, refusal).  With spaces, an escaped backslash followed by an escaped colon is refused although no
colon in it is unescaped. -/
theorem C14_refusal_violated : ¬ UnescapedColon "\\\\\\:".toList ∧
    tokenizePairString "0".toList true ["\\\\".toList, "\\:".toList] = .throws := by
  refine ⟨?_, by decide +kernel⟩
  rintro ⟨a, b, h, ht⟩
  have h' : ['\\', '\\', '\\', ':'] = a ++ ':' :: b := h
  match a with
  | [] => simp at h'
  | [_] => simp at h'
  | [_, _] => simp at h'
  | [x, y, z] =>
    simp at h'
    obtain ⟨rfl, rfl, rfl, _⟩ := h'
    exact absurd ht (by decide)
  | x :: y :: z :: u :: l => simp at h'

end Hfst.PairString
