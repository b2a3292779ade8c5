import Verif.Model.Prolog
import Verif.Lemmas.Text
import Verif.Lemmas.Graph
import Verif.Spec.Path
import Verif.Props.GraphSplice
import Mathlib.Tactic.ByContra

/-! # Prolog text: symbols and transducers (C13, C55) -/
namespace Hfst.Prolog
open Hfst.StdString Hfst.Basic Hfst.Text

/-! ## Symbols -/

/-- Backslash and double quote get a backslash in front. -/
private def pe (c : Char) : Str := if c = '\\' then ['\\', '\\'] else if c = '"' then ['\\', '"'] else [c]

/-- Only backslashes are doubled. -/
private def pb (c : Char) : Str := if c = '\\' then ['\\', '\\'] else [c]

private theorem escape_eq (x : Str) : replaceAll (replaceAll x ['\\'] ['\\', '\\']) ['"'] ['\\', '"'] = x.flatMap pe := by
  rw [replaceAll_char, replaceAll_char, List.flatMap_assoc]
  congr 1; funext c
  unfold pe
  by_cases h : c = '\\'
  · subst h; rfl
  · rw [if_neg h, if_neg h, List.flatMap_singleton]

private theorem head_pe (x : Str) : ¬ ['"'] <+: x.flatMap pe := by
  cases x with
  | nil => simp
  | cons c x =>
    rw [List.flatMap_cons]
    unfold pe
    split
    · simp
    · split
      · simp
      · rename_i h
        intro h'
        rw [List.singleton_append, List.cons_prefix_cons] at h'
        exact h h'.1.symm

private theorem unescape_quote : ∀ x : Str, replaceGo ['\\', '"'] ['"'] 0 (x.flatMap pe) = x.flatMap pb
  | [] => by rw [List.flatMap_nil, List.flatMap_nil, replaceGo]
  | c :: x => by
    have ih := unescape_quote x
    rw [List.flatMap_cons, List.flatMap_cons]
    by_cases h : c = '\\'
    · subst h
      rw [show pe '\\' = ['\\', '\\'] from rfl, show pb '\\' = ['\\', '\\'] from rfl]
      rw [List.cons_append, List.cons_append, List.nil_append, replaceGo_step, replaceGo_step, ih]
      · rfl
      · intro h
        rw [List.cons_prefix_cons] at h
        exact head_pe x h.2
      · intro h
        rw [List.cons_prefix_cons, List.cons_prefix_cons] at h
        exact absurd h.2.1 (by decide)
    · by_cases hq : c = '"'
      · subst hq
        rw [show pe '"' = ['\\', '"'] from rfl, show pb '"' = ['"'] from rfl, replaceGo_match (by simp), ih]
      · rw [show pe c = [c] by unfold pe; rw [if_neg h, if_neg hq], show pb c = [c] by unfold pb; rw [if_neg h],
          List.singleton_append, List.singleton_append, replaceGo_step, ih]
        intro h'
        rw [List.cons_prefix_cons] at h'
        exact h h'.1.symm

private theorem unescape_backslash : ∀ x : Str, replaceGo ['\\', '\\'] ['\\'] 0 (x.flatMap pb) = x
  | [] => by rw [List.flatMap_nil, replaceGo]
  | c :: x => by
    have ih := unescape_backslash x
    rw [List.flatMap_cons]
    by_cases h : c = '\\'
    · subst h
      rw [show pb '\\' = ['\\', '\\'] from rfl, replaceGo_match (by simp), ih]; rfl
    · rw [show pb c = [c] by unfold pb; rw [if_neg h], List.singleton_append, replaceGo_step, ih]
      intro h'
      rw [List.cons_prefix_cons] at h'
      exact h h'.1.symm

private theorem eq_of_no_backslash {x y : Str} (h : x.flatMap pe = y) (hy : '\\' ∉ y) : x = y := by
  subst h
  induction x with
  | nil => rfl
  | cons c x ih =>
    rw [List.flatMap_cons, List.mem_append, not_or] at hy
    rw [List.flatMap_cons, ← ih hy.2]
    unfold pe at hy ⊢
    split
    · rename_i h; rw [if_pos h] at hy; exact absurd (by simp) hy.1
    · rename_i h
      rw [if_neg h] at hy
      split
      · rename_i h'; rw [if_pos h'] at hy; exact absurd (by simp) hy.1
      · rfl

/-- Escaping and undoing the escape, for every symbol: the two spellings `%0` and `%?` read back as `0` and `?`, the
identity symbol reads back as the unknown symbol, and every other symbol reads back as itself. -/
theorem C13 (x : Sym) : deprologize (prologize x) =
    if x = "%0".toList then "0".toList
    else if x = "%?".toList then "?".toList
    else if x = identity then unknown
    else x := by
  by_cases h1 : x = "0".toList
  · subst h1; decide
  by_cases h2 : x = "?".toList
  · subst h2; decide
  by_cases h3 : x = epsilon
  · subst h3; decide
  by_cases h4 : x = unknown
  · subst h4; decide
  by_cases h5 : x = identity
  · subst h5; decide
  have hp : prologize x = x.flatMap pe := by
    unfold prologize
    rw [if_neg h1, if_neg h2, if_neg h3, if_neg h4, if_neg h5, escape_eq]
  rw [hp, if_neg h5]
  unfold deprologize
  by_cases e1 : x = "%0".toList
  · rw [if_pos e1]; subst e1; rw [if_pos (by decide)]
  by_cases e2 : x = "%?".toList
  · rw [if_neg e1, if_pos e2]; subst e2; decide
  rw [if_neg e1, if_neg e2, if_neg fun h => e1 (eq_of_no_backslash h (by decide)),
    if_neg fun h => e2 (eq_of_no_backslash h (by decide)), if_neg fun h => h1 (eq_of_no_backslash h (by decide)),
    if_neg fun h => h2 (eq_of_no_backslash h (by decide))]
  unfold replaceAll
  rw [unescape_quote, unescape_backslash]

example : deprologize (prologize "a\\\"b\\".toList) = "a\\\"b\\".toList := by rw [C13]; decide
example : deprologize (prologize "%0".toList) = "0".toList := by rw [C13]; decide

/-- Symbols that can be on a transition in prolog text: not empty, not one of the two reserved spellings, and not ending
in a backslash. -/
structure ArcSymbol (x : Sym) : Prop where
  nonempty : x ≠ []
  notZero : x ≠ "%0".toList
  notAny : x ≠ "%?".toList
  noBackslash : x.getLast? ≠ some '\\'

private theorem prologize_shape (x : Sym) : ∃ y, prologize x = y.flatMap pe ∧ (y = x ∨ '\\' ∉ y) ∧ (y = [] → x = []) := by
  unfold prologize
  split
  · exact ⟨"%0".toList, by decide, Or.inr (by decide), fun h => absurd h (by decide)⟩
  split
  · exact ⟨"%?".toList, by decide, Or.inr (by decide), fun h => absurd h (by decide)⟩
  split
  · exact ⟨"0".toList, by decide, Or.inr (by decide), fun h => absurd h (by decide)⟩
  split
  · exact ⟨"?".toList, by decide, Or.inr (by decide), fun h => absurd h (by decide)⟩
  split
  · exact ⟨"?".toList, by decide, Or.inr (by decide), fun h => absurd h (by decide)⟩
  · exact ⟨x, escape_eq x, Or.inl rfl, id⟩

/-- Going over an escaped text finds no unescaped quote and leaves its last character as the previous one. -/
private theorem positionsGo_escaped : ∀ (x : Str) (prev : Option Char) (i : Nat) (s : Str),
    positionsGo '"' '\\' prev i (x.flatMap pe ++ s) =
      positionsGo '"' '\\' ((x.getLast?).or prev) (i + (x.flatMap pe).length) s
  | [], prev, i, s => by simp
  | c :: x, prev, i, s => by
    have hl : ((c :: x).getLast?).or prev = (x.getLast?).or (some c) := by
      cases x with
      | nil => rfl
      | cons d x => rw [List.getLast?_cons_cons]; simp [List.getLast?_cons]
    rw [List.flatMap_cons, List.append_assoc, hl]
    by_cases h : c = '\\'
    · subst h
      rw [show pe '\\' = ['\\', '\\'] from rfl, List.cons_append, List.cons_append, List.nil_append, positionsGo,
        if_neg (by simp), positionsGo, if_neg (by simp), positionsGo_escaped x]
      congr 1; simp; omega
    · by_cases hq : c = '"'
      · subst hq
        rw [show pe '"' = ['\\', '"'] from rfl, List.cons_append, List.cons_append, List.nil_append, positionsGo,
          if_neg (by simp), positionsGo, if_neg (by simp), positionsGo_escaped x]
        congr 1; simp; omega
      · rw [show pe c = [c] by unfold pe; rw [if_neg h, if_neg hq], List.singleton_append, positionsGo,
          if_neg (fun h => hq h.1), positionsGo_escaped x]
        congr 1; simp; omega

private theorem last_ok {x y : Str} (h : x.getLast? ≠ some '\\') (hy : y = x ∨ '\\' ∉ y) (p : Option Char)
    (hp : p ≠ some '\\') : (y.getLast?).or p ≠ some '\\' := by
  cases hl : y.getLast? with
  | none => simpa using hp
  | some c =>
    intro hc
    have hc' : c = '\\' := by simpa using hc
    subst hc'
    rcases hy with rfl | hy
    · exact h hl
    · exact hy (List.mem_of_getLast? hl)

/-- **C13** for the text of a transition: the pair that is printed is the pair that is read, whenever the symbols are
`ArcSymbol`s and the identity symbol is only paired with itself. -/
theorem C13_arc (i o : Sym) (hi : ArcSymbol i) (ho : ArcSymbol o) (hid : i = identity ∨ o = identity → i = o) :
    getArcSymbols (arcSymbols i o) = some (i, o) := by
  obtain ⟨y, hy, hy1, hy2⟩ := prologize_shape i
  obtain ⟨z, hz, hz1, hz2⟩ := prologize_shape o
  have di := C13 i
  rw [if_neg hi.notZero, if_neg hi.notAny] at di
  have dz := C13 o
  rw [if_neg ho.notZero, if_neg ho.notAny] at dz
  have py := last_ok hi.noBackslash hy1 (some '"') (by decide)
  have pz := last_ok ho.noBackslash hz1 (some '"') (by decide)
  by_cases hc : i ≠ o ∨ i = unknown
  · have hid1 : ¬ i = identity := by
      intro h
      rcases hc with hc | hc
      · exact hc (hid (Or.inl h))
      · rw [hc] at h; exact absurd h (by decide)
    have hid2 : ¬ o = identity := by
      intro h
      have h' := hid (Or.inr h)
      rw [h] at h'; exact hid1 h'
    rw [if_neg hid1] at di
    rw [if_neg hid2] at dz
    have ht : arcSymbols i o = '"' :: (prologize i ++ '"' :: ':' :: '"' :: (prologize o ++ ['"'])) := by
      unfold arcSymbols; rw [if_pos hc]; simp
    have hpos : positions (arcSymbols i o) '"' '\\' =
        [0, (prologize i).length + 1, (prologize i).length + 3, (prologize i).length + (prologize o).length + 4] := by
      rw [ht]
      unfold positions
      rw [positionsGo, if_pos ⟨rfl, by decide⟩, hy, positionsGo_escaped, positionsGo, if_pos ⟨rfl, py⟩, positionsGo,
        if_neg (by simp), positionsGo, if_pos ⟨rfl, by decide⟩, hz, positionsGo_escaped, positionsGo, if_pos ⟨rfl, pz⟩,
        positionsGo]
      simp only [List.cons.injEq, and_true, true_and]
      omega
    have hlen : (arcSymbols i o).length = (prologize i).length + (prologize o).length + 5 := by
      rw [ht]; simp; omega
    unfold getArcSymbols
    rw [hpos]
    simp only []
    rw [if_neg (by rw [hlen]; omega), if_neg (by omega)]
    have e1 : (arcSymbols i o)[(prologize i).length + 1 + 1]? = some ':' := by
      rw [ht, show '"' :: (prologize i ++ '"' :: ':' :: '"' :: (prologize o ++ ['"'])) =
        ('"' :: prologize i ++ ['"']) ++ ':' :: '"' :: (prologize o ++ ['"']) by simp,
        List.getElem?_append_right (by simp)]
      simp
    rw [if_neg (by rw [e1]; simp)]
    have e2 : ((arcSymbols i o).drop (0 + 1)).take ((prologize i).length + 1 - 0 - 1) = prologize i := by
      rw [ht]; simp
    have e3 : ((arcSymbols i o).drop ((prologize i).length + 3 + 1)).take
        ((prologize i).length + (prologize o).length + 4 - ((prologize i).length + 3) - 1) = prologize o := by
      rw [ht, show '"' :: (prologize i ++ '"' :: ':' :: '"' :: (prologize o ++ ['"'])) =
        ('"' :: prologize i ++ ['"', ':', '"']) ++ (prologize o ++ ['"']) by simp,
        List.drop_left' (by simp), List.take_left' (by omega)]
    rw [e2, e3, di, dz]
  · rw [not_or, Classical.not_not] at hc
    obtain ⟨rfl, hu⟩ := hc
    have ht : arcSymbols i i = '"' :: (prologize i ++ ['"']) := by
      unfold arcSymbols; rw [if_neg (by rw [not_or]; exact ⟨by simp, hu⟩)]; simp
    have hpos : positions (arcSymbols i i) '"' '\\' = [0, (prologize i).length + 1] := by
      rw [ht]
      unfold positions
      rw [positionsGo, if_pos ⟨rfl, by decide⟩, hy, positionsGo_escaped, positionsGo, if_pos ⟨rfl, py⟩, positionsGo]
      simp only [List.cons.injEq, and_true, true_and]
      omega
    have hlen : (arcSymbols i i).length = (prologize i).length + 2 := by
      rw [ht]; simp
    unfold getArcSymbols
    rw [hpos]
    simp only []
    rw [if_neg (by rw [hlen]; omega)]
    have e2 : ((arcSymbols i i).drop (0 + 1)).take ((prologize i).length + 1 - 0 - 1) = prologize i := by
      rw [ht]; simp
    rw [e2, di]
    by_cases h : i = identity
    · rw [if_pos h, if_pos rfl, h]
    · rw [if_neg h, if_neg hu]

example : ArcSymbol "a\"b, c".toList := ⟨by decide, by decide, by decide, by decide⟩
example : getArcSymbols (arcSymbols "a\"b".toList epsilon) = some ("a\"b".toList, epsilon) := by decide +kernel

/-- **C13** (negation for transitions).  Every transition whose input symbol ends in a backslash and whose output is the
same is refused by the reader. -/
theorem C13_arc_violated (x : Sym) (h : x.getLast? = some '\\') : getArcSymbols (arcSymbols x x) = none := by
  have hx : prologize x = x.flatMap pe := by
    have : ∀ y : Sym, y.getLast? ≠ some '\\' → x ≠ y := by
      rintro y hy rfl; exact hy h
    unfold prologize
    rw [if_neg (this _ (by decide)), if_neg (this _ (by decide)), if_neg (this _ (by decide)),
      if_neg (this _ (by decide)), if_neg (this _ (by decide)), escape_eq]
  have hu : x ≠ unknown := by rintro rfl; exact absurd h (by decide)
  have ht : arcSymbols x x = '"' :: (x.flatMap pe ++ ['"']) := by
    unfold arcSymbols; rw [if_neg (by rw [not_or]; exact ⟨by simp, hu⟩), hx]; simp
  have hpos : positions (arcSymbols x x) '"' '\\' = [0] := by
    rw [ht]
    unfold positions
    rw [positionsGo, if_pos ⟨rfl, by decide⟩, positionsGo_escaped, positionsGo, if_neg, positionsGo]
    rw [h]; simp
  unfold getArcSymbols
  rw [hpos]

example : ("a\\".toList).getLast? = some '\\' := by decide

/-! ## Whole transducers -/

private theorem sscanf_lits (p : Str) (ds : List Dir) (s : Str) : sscanf (lits p ++ ds) (p ++ s) = sscanf ds s := by
  induction p with
  | nil => rfl
  | cons c p ih => rw [lits, List.map_cons, List.cons_append, List.cons_append, sscanf, if_pos rfl]; exact ih

private theorem sscanf_notIn {cs : List Char} {c : Char} {f : Str} (ds : List Dir) (s : Str) (hf : f ≠ [])
    (hfc : ∀ d ∈ f, d ∉ cs) (hc : c ∈ cs) : sscanf (.notIn cs :: ds) (f ++ c :: s) = f :: sscanf ds (c :: s) := by
  have hp : ∀ d ∈ f, (decide (d ∉ cs)) = true := fun d hd => by simpa using hfc d hd
  have h1 : (f ++ c :: s).takeWhile (fun d => decide (d ∉ cs)) = f := by
    rw [List.takeWhile_append_of_pos hp, List.takeWhile_cons, if_neg (by simpa using hc), List.append_nil]
  have h2 : (f ++ c :: s).dropWhile (fun d => decide (d ∉ cs)) = c :: s := by
    rw [List.dropWhile_append_of_pos hp, List.dropWhile_cons, if_neg (by simpa using hc)]
  rw [sscanf, h1, h2, if_neg hf]

private theorem sscanf_notIn_end {cs : List Char} {f : Str} (hf : f ≠ []) (hfc : ∀ d ∈ f, d ∉ cs) :
    sscanf [.notIn cs] f = [f] := by
  have hp : ∀ d ∈ f, (decide (d ∉ cs)) = true := fun d hd => by simpa using hfc d hd
  rw [sscanf]
  rw [takeWhile_eq_self hp, if_neg hf, sscanf]

private theorem sscanf_word_end {f : Str} (hf : f ≠ []) (hs : ∀ c ∈ f, isSpace c = false) : sscanf [.word] f = [f] := by
  have hp : ∀ c ∈ f, (!isSpace c) = true := fun c hc => by rw [hs c hc]; rfl
  have hd : f.dropWhile isSpace = f := by
    cases f with
    | nil => rfl
    | cons c f => rw [List.dropWhile_cons, if_neg (by rw [hs c (by simp)]; simp)]
  rw [sscanf]
  simp only [hd]
  rw [takeWhile_eq_self hp, if_neg hf, sscanf]

private theorem sscanf_comma (ds : List Dir) (c : Char) (s : Str) (hc : isSpace c = false) :
    sscanf (.lit ',' :: .blank :: ds) (',' :: ' ' :: c :: s) = sscanf ds (c :: s) := by
  rw [sscanf, if_pos rfl, sscanf, List.dropWhile_cons, if_pos (by decide), List.dropWhile_cons, if_neg (by simp [hc])]

private theorem stripEnd_append {s : Str} (h : s ≠ []) : stripEnd (s ++ [')', '.']) = some s := by
  have hl : 0 < s.length := List.length_pos_iff.mpr h
  unfold stripEnd
  have e0 : (s ++ [')', '.']).length = s.length + 2 := by simp
  rw [if_neg (by rw [e0]; omega), if_neg, e0, show s.length + 2 - 2 = s.length by omega, List.take_left]
  rw [e0, show s.length + 2 - 2 = s.length by omega, show s.length + 2 - 1 = s.length + 1 by omega,
    List.getElem?_append_right (by omega), List.getElem?_append_right (by omega)]
  simp

private theorem stripQuotes_quoted {s : Str} (h : s ≠ []) : stripQuotes ('"' :: s ++ ['"']) = some s := by
  have hl : 0 < s.length := List.length_pos_iff.mpr h
  unfold stripQuotes
  rw [if_neg (by simp; omega), if_neg (by rw [not_or, not_not, not_not]; exact ⟨rfl, by rw [List.getLast?_append]; rfl⟩)]
  simp

private theorem stripNewlines_line {l : Str} {c : Char} (hl : l.getLast? = some c) (h1 : c ≠ '\n') (h2 : c ≠ '\r') :
    stripNewlines (l ++ ['\n']) = l := by
  unfold stripNewlines
  obtain ⟨l', rfl⟩ := List.getLast?_eq_some_iff.mp hl
  rw [List.reverse_append, List.reverse_append]
  simp only [List.reverse_singleton, List.singleton_append]
  rw [List.dropWhile_cons, if_pos (by simp), List.dropWhile_cons, if_neg (by simp [h1, h2])]
  simp

private theorem findLast_append {a b : Str} {c : Char} (h : c ∉ b) : findLast (a ++ c :: b) c = some a.length := by
  unfold findLast
  rw [List.reverse_append, List.reverse_cons, List.append_assoc, List.findIdx?_append]
  have h1 : (b.reverse).findIdx? (fun d => d == c) = none := by
    rw [List.findIdx?_eq_none_iff]
    intro d hd
    rw [List.mem_reverse] at hd
    have : d ≠ c := by rintro rfl; exact h hd
    simpa using this
  rw [h1]
  simp only [Option.none_or, List.singleton_append, List.findIdx?_cons, beq_self_eq_true, if_true]
  simp

private theorem findLast_none {b : Str} {c : Char} (h : c ∉ b) : findLast b c = none := by
  unfold findLast
  have h1 : (b.reverse).findIdx? (fun d => d == c) = none := by
    rw [List.findIdx?_eq_none_iff]
    intro d hd
    rw [List.mem_reverse] at hd
    have : d ≠ c := by rintro rfl; exact h hd
    simpa using this
  rw [h1]; rfl

private theorem findLast_lt {b : Str} {c : Char} {p : Nat} (h : findLast b c = some p) : p < b.length := by
  unfold findLast at h
  rw [Option.map_eq_some_iff] at h
  obtain ⟨k, hk, rfl⟩ := h
  have := List.findIdx?_eq_some_iff_getElem.mp hk
  obtain ⟨hk', _⟩ := this
  rw [List.length_reverse] at hk'
  omega

private theorem extractWeight_none (readW : Str → Option Int) (a : Str) :
    extractWeight readW (a ++ ['"']) = some (a ++ ['"'], 0) := by
  unfold extractWeight
  rw [findLast_append (by simp)]
  cases h : findLast (a ++ ['"']) ' ' with
  | none => rfl
  | some p =>
    simp only []
    have hp : p < a.length := by
      have h1 := findLast_lt h
      rw [List.length_append, List.length_singleton] at h1
      by_contra hne
      have hp : p = a.length := by omega
      subst hp
      unfold findLast at h
      rw [List.reverse_append, List.reverse_singleton, List.singleton_append, List.findIdx?_cons] at h
      simp only [show ('"' == ' ') = false from by decide, Bool.false_eq_true, if_false, Option.map_map,
        Option.map_eq_some_iff, Function.comp_apply, List.length_append, List.length_singleton] at h
      obtain ⟨k, hk, h⟩ := h
      obtain ⟨hk', _⟩ := List.findIdx?_eq_some_iff_getElem.mp hk
      rw [List.length_reverse] at hk'
      omega
    rw [if_pos hp]

private theorem extractWeight_some {readW : Str → Option Int} {w : Int} (a t : Str) (ht : t ≠ []) (h1 : '"' ∉ t)
    (h2 : ' ' ∉ t) (hw : readW t = some w) :
    extractWeight readW (a ++ '"' :: ',' :: ' ' :: t) = some (a ++ ['"'], w) := by
  have hl : 0 < t.length := List.length_pos_iff.mpr ht
  unfold extractWeight
  rw [findLast_append (by simp [h1]), show a ++ '"' :: ',' :: ' ' :: t = (a ++ ['"', ',']) ++ ' ' :: t by simp,
    findLast_append h2]
  simp only [List.length_append, List.length_cons, List.length_nil]
  rw [if_neg (by omega), if_pos ⟨trivial, by omega⟩]
  rw [show (a ++ ['"', ',']) ++ ' ' :: t = (a ++ ['"', ',', ' ']) ++ t by simp, List.drop_left' (by simp)]
  rw [hw]
  simp only []
  rw [show (a ++ ['"', ',', ' ']) ++ t = (a ++ ['"']) ++ (',' :: ' ' :: t) by simp, List.take_left' (by simp)]

/-- A name that can be given to a network: not empty, without comma and blanks, and short. -/
structure NameOK (name : Str) : Prop where
  nonempty : name ≠ []
  noComma : ',' ∉ name
  noSpace : ∀ c ∈ name, isSpace c = false
  fits : name.length < 98

/-- A weight whose text is one word without comma, quote, parenthesis and reads back as the weight. -/
structure WeightOK (showW : Int → Str) (readW : Str → Option Int) (w : Int) : Prop where
  nonempty : showW w ≠ []
  noSpace : ∀ c ∈ showW w, isSpace c = false
  plain : ',' ∉ showW w ∧ '"' ∉ showW w ∧ ')' ∉ showW w
  back : readW (showW w) = some w
  fits : (showW w).length < 100

/-- What the writer and the reader rely on. -/
structure CanWrite (showW : Int → Str) (readW : Str → Option Int) (ww : Bool) (name : Str) (g : Graph) : Prop where
  named : NameOK name
  few : g.states.length ≤ 2 ^ 31
  arcs : ∀ s, ∀ a ∈ g.arcs s, ArcSymbol a.inp ∧ ArcSymbol a.out ∧ (a.inp = identity ∨ a.out = identity → a.inp = a.out) ∧
    '\t' ∉ a.inp ++ a.out ∧ '\n' ∉ a.inp ++ a.out ∧ (ww = true → WeightOK showW readW a.weight) ∧
    (arcSymbols a.inp a.out ++ (if ww then ", ".toList ++ showW a.weight else [])).length < 98 ∧
    (arcLine showW ww name s a).length ≤ 254
  finals : ∀ f ∈ g.finals, (ww = true → WeightOK showW readW f.2) ∧ (finalLine showW ww name f).length ≤ 254
  unused : ∀ x ∈ g.alphabet, x ∉ g.symbolsUsed → x ≠ epsilon → x ≠ unknown → x ≠ identity →
    x ≠ [] ∧ x ≠ "%0".toList ∧ x ≠ "%?".toList ∧ (∀ c ∈ x, isSpace c = false) ∧ ',' ∉ x ∧ (prologize x).length < 96 ∧
      (symbolLine name x).length ≤ 254

private theorem mem_prologize {x : Sym} {c : Char} (h : c ∈ prologize x) :
    c ∈ x ∨ c ∈ ['\\', '"', '%', '0', '?'] := by
  unfold prologize at h
  have hd : ∀ {s : Str}, (∀ c ∈ s, c ∈ ['\\', '"', '%', '0', '?']) → c ∈ s → c ∈ x ∨ c ∈ ['\\', '"', '%', '0', '?'] :=
    fun h h' => Or.inr (h _ h')
  split at h
  · exact hd (by decide) h
  split at h
  · exact hd (by decide) h
  split at h
  · exact hd (by decide) h
  split at h
  · exact hd (by decide) h
  split at h
  · exact hd (by decide) h
  · rw [escape_eq, List.mem_flatMap] at h
    obtain ⟨d, hd', h⟩ := h
    unfold pe at h
    split at h
    · right; simp at h; simp [h]
    · split at h
      · right; simp at h; rcases h with rfl | rfl <;> simp
      · rw [List.mem_singleton] at h; exact Or.inl (by rw [h]; exact hd')

private theorem mem_arcSymbols {i o : Sym} {c : Char} (h : c ∈ arcSymbols i o) :
    c ∈ i ++ o ∨ c ∈ ['\\', '"', '%', '0', '?', ':'] := by
  unfold arcSymbols at h
  simp only [List.mem_append, List.mem_cons] at h ⊢
  rcases h with ((rfl | h) | h) | h
  · right; simp
  · rcases mem_prologize h with h | h
    · exact Or.inl (Or.inl h)
    · right; simp at h ⊢; rcases h with h | h | h | h | h <;> simp [h]
  · right; simp at h; simp [h]
  · split at h
    · simp only [List.mem_append] at h
      rcases h with (h | h) | h
      · right; simp at h; rcases h with h | h <;> simp [h]
      · rcases mem_prologize h with h | h
        · exact Or.inl (Or.inr h)
        · right; simp at h ⊢; rcases h with h | h | h | h | h <;> simp [h]
      · right; simp at h; simp [h]
    · simp at h

private theorem arcSymbols_end (i o : Sym) : ∃ a, arcSymbols i o = a ++ ['"'] := by
  unfold arcSymbols
  split
  · exact ⟨'"' :: prologize i ++ ['"'] ++ (":\"".toList ++ prologize o), by simp⟩
  · exact ⟨'"' :: prologize i, by simp⟩

private theorem arcSymbols_start (i o : Sym) : ∃ a, arcSymbols i o = '"' :: a := by
  unfold arcSymbols; exact ⟨_, rfl⟩

private theorem natText_cons (n : Nat) : ∃ c t, natText n = c :: t ∧ isSpace c = false := by
  cases h : natText n with
  | nil => exact absurd h (natText_ne_nil n)
  | cons c t => exact ⟨c, t, rfl, not_space_of_digit (natText_digits n c (by rw [h]; simp))⟩

private theorem natText_no_comma (n : Nat) : ∀ d ∈ natText n, d ∉ [','] := by
  intro d hd h
  rw [List.mem_singleton] at h; subst h
  exact absurd (natText_digits n _ hd) (by decide)

private theorem natText_no_paren (n : Nat) : ∀ d ∈ natText n, d ∉ [')'] := by
  intro d hd h
  rw [List.mem_singleton] at h; subst h
  exact absurd (natText_digits n _ hd) (by decide)

private theorem natTextGo_length : ∀ (f n k : Nat), n < 10 ^ (k + 1) → (natTextGo f n).length ≤ k + 1
  | 0, _, _, _ => by simp [natTextGo]
  | f + 1, n, k, h => by
    rw [natTextGo]
    split
    · simp
    · rename_i hn
      cases k with
      | zero => omega
      | succ k =>
        have := natTextGo_length f (n / 10) k (by
          rw [Nat.div_lt_iff_lt_mul (by omega)]; rw [Nat.pow_succ] at h; exact h)
        simp; omega

private theorem natText_length {n : Nat} (h : n < 2 ^ 31) : (natText n).length < 100 := by
  have := natTextGo_length (n + 1) n 9 (by omega)
  unfold natText; omega

private theorem nameNotIn {name : Str} (h : ',' ∉ name) : ∀ d ∈ name, d ∉ [','] := by
  intro d hd h'
  rw [List.mem_singleton] at h'; subst h'; exact h hd

/-- The line of an arc without its newline. -/
private def arcText (showW : Int → Str) (ww : Bool) (name : Str) (s : Nat) (a : Arc) : Str :=
  "arc(".toList ++ (name ++ ',' :: ' ' :: (natText s ++ ',' :: ' ' :: (natText a.target ++ ',' :: ' ' ::
    (arcSymbols a.inp a.out ++ (if ww then ", ".toList ++ showW a.weight else []) ++ [')', '.']))))

private theorem arcLine_eq (showW : Int → Str) (ww : Bool) (name : Str) (s : Nat) (a : Arc) :
    arcLine showW ww name s a = arcText showW ww name s a ++ ['\n'] := by
  unfold arcLine arcText
  rw [show ", ".toList = [',', ' '] from rfl, show ").\n".toList = [')', '.', '\n'] from rfl]
  simp

private theorem parse_arc {showW : Int → Str} {readW : Str → Option Int} {ww : Bool} {name : Str} {s : Nat} {a : Arc}
    (hn : NameOK name) (hs : s < 2 ^ 31) (ht : a.target < 2 ^ 31) (hi : ArcSymbol a.inp) (ho : ArcSymbol a.out)
    (hid : a.inp = identity ∨ a.out = identity → a.inp = a.out) (htab : '\t' ∉ a.inp ++ a.out)
    (hnl : '\n' ∉ a.inp ++ a.out) (hw : ww = true → WeightOK showW readW a.weight)
    (hfit : (arcSymbols a.inp a.out ++ (if ww then ", ".toList ++ showW a.weight else [])).length < 98)
    (junk : Str) (g : Graph) :
    parseLine readW junk name g (arcText showW ww name s a) =
      .ok (g.addTransition s { a with weight := if ww then a.weight else 0 }) := by
  obtain ⟨b, hb⟩ := arcSymbols_start a.inp a.out
  obtain ⟨e, he⟩ := arcSymbols_end a.inp a.out
  obtain ⟨c1, t1, hc1, hc1'⟩ := natText_cons s
  obtain ⟨c2, t2, hc2, hc2'⟩ := natText_cons a.target
  have hsym : ∀ d ∈ arcSymbols a.inp a.out ++ (if ww then ", ".toList ++ showW a.weight else []) ++ [')', '.'],
      d ∉ ['\t', '\n'] := by
    intro d hd hd'
    have hd2 : d = '\t' ∨ d = '\n' := by simpa using hd'
    rw [List.mem_append, List.mem_append] at hd
    rcases hd with (hd | hd) | hd
    · rcases mem_arcSymbols hd with h | h
      · rcases hd2 with rfl | rfl
        · exact htab h
        · exact hnl h
      · rcases hd2 with rfl | rfl <;> exact absurd h (by decide)
    · cases ww with
      | false => simp at hd
      | true =>
        rw [if_pos rfl, List.mem_append] at hd
        rcases hd with hd | hd
        · rcases hd2 with rfl | rfl <;> exact absurd hd (by decide)
        · have := (hw rfl).noSpace d hd
          rcases hd2 with rfl | rfl <;> exact absurd this (by decide)
    · rcases hd2 with rfl | rfl <;> exact absurd hd (by decide)
  have hf : sscanf arcFormat (arcText showW ww name s a) = [name, natText s, natText a.target,
      arcSymbols a.inp a.out ++ (if ww then ", ".toList ++ showW a.weight else []) ++ [')', '.']] := by
    unfold arcFormat arcText
    rw [sscanf_lits, sscanf_notIn _ _ hn.nonempty (nameNotIn hn.noComma) (by simp)]
    rw [hc1, List.cons_append, sscanf_comma _ _ _ hc1', ← List.cons_append, ← hc1,
      sscanf_notIn _ _ (natText_ne_nil s) (natText_no_comma s) (by simp)]
    rw [hc2, List.cons_append, sscanf_comma _ _ _ hc2', ← List.cons_append, ← hc2,
      sscanf_notIn _ _ (natText_ne_nil _) (natText_no_comma _) (by simp)]
    rw [show arcSymbols a.inp a.out ++ (if ww then ", ".toList ++ showW a.weight else []) ++ [')', '.'] =
      '"' :: (b ++ (if ww then ", ".toList ++ showW a.weight else []) ++ [')', '.']) by rw [hb]; simp]
    rw [sscanf_comma _ _ _ (by decide)]
    rw [show '"' :: (b ++ (if ww then ", ".toList ++ showW a.weight else []) ++ [')', '.']) =
      arcSymbols a.inp a.out ++ (if ww then ", ".toList ++ showW a.weight else []) ++ [')', '.'] by rw [hb]; simp]
    rw [sscanf_notIn_end (by simp) hsym]
  have hov : overflows [name, natText s, natText a.target,
      arcSymbols a.inp a.out ++ (if ww then ", ".toList ++ showW a.weight else []) ++ [')', '.']] = false := by
    have h1 := natText_length hs
    have h2 := natText_length ht
    have h3 := hn.fits
    have h4 : (arcSymbols a.inp a.out ++ (if ww then ", ".toList ++ showW a.weight else []) ++ [')', '.']).length < 100 := by
      rw [List.length_append]; simp only [List.length_cons, List.length_nil]; omega
    unfold overflows
    rw [← Bool.not_eq_true, List.any_eq_true]
    rintro ⟨f, hf, hf'⟩
    rw [decide_eq_true_eq] at hf'
    simp only [List.mem_cons, List.not_mem_nil, or_false] at hf
    rcases hf with rfl | rfl | rfl | rfl <;> omega
  have hew : extractWeight readW (arcSymbols a.inp a.out ++ (if ww then ", ".toList ++ showW a.weight else [])) =
      some (arcSymbols a.inp a.out, if ww then a.weight else 0) := by
    cases ww with
    | false => rw [if_neg (by simp), List.append_nil, he, extractWeight_none]; rfl
    | true =>
      have hk := hw rfl
      rw [if_pos rfl, show ", ".toList = [',', ' '] from rfl, he, List.append_assoc]
      exact extractWeight_some e (showW a.weight) hk.nonempty hk.plain.2.1
        (fun h => absurd (hk.noSpace _ h) (by decide)) hk.back
  have hpa : parseArc readW junk name g (arcText showW ww name s a) =
      .ok (some (g.addTransition s { a with weight := if ww then a.weight else 0 })) := by
    unfold parseArc
    rw [hf]
    simp only [hov, Bool.false_eq_true, if_false]
    rw [show ([name, natText s, natText a.target,
      arcSymbols a.inp a.out ++ (if ww then ", ".toList ++ showW a.weight else []) ++ [')', '.']][3]?).getD junk =
      arcSymbols a.inp a.out ++ (if ww then ", ".toList ++ showW a.weight else []) ++ [')', '.'] from rfl]
    rw [stripEnd_append (by rw [hb]; simp)]
    simp only [ne_eq, not_true_eq_false, if_false, atoi_natText hs, atoi_natText ht, hew, C13_arc a.inp a.out hi ho hid]
    rw [if_neg (by rw [not_or]; exact ⟨hi.nonempty, ho.nonempty⟩)]
  unfold parseLine
  rw [hpa]

/-- A line that does not begin like an arc is no arc, whatever the uninitialised buffer contains. -/
private theorem parseArc_other (readW : Str → Option Int) (junk name : Str) (g : Graph) {c : Char} {s : Str} (h : c ≠ 'a') :
    parseArc readW junk name g (c :: s) = .ok none := by
  have hf : sscanf arcFormat (c :: s) = [] := by
    unfold arcFormat
    rw [show lits "arc(".toList = .lit 'a' :: lits "rc(".toList from rfl, List.cons_append, sscanf, if_neg h]
  unfold parseArc
  rw [hf]
  simp only [overflows, List.any_nil, Bool.false_eq_true, if_false]
  split <;> rfl

private def finalText (showW : Int → Str) (ww : Bool) (name : Str) (f : Nat × Int) : Str :=
  "final(".toList ++ (name ++ ',' :: ' ' :: (natText f.1 ++ (if ww then ',' :: ' ' :: (showW f.2 ++ [')', '.']) else [')', '.'])))

private theorem finalLine_eq (showW : Int → Str) (ww : Bool) (name : Str) (f : Nat × Int) :
    finalLine showW ww name f = finalText showW ww name f ++ ['\n'] := by
  unfold finalLine finalText
  rw [show ", ".toList = [',', ' '] from rfl, show ").\n".toList = [')', '.', '\n'] from rfl]
  cases ww <;> simp

private theorem parse_final {showW : Int → Str} {readW : Str → Option Int} {ww : Bool} {name : Str} {f : Nat × Int}
    (hn : NameOK name) (hs : f.1 < 2 ^ 31) (hw : ww = true → WeightOK showW readW f.2) (junk : Str) (g : Graph) :
    parseLine readW junk name g (finalText showW ww name f) = .ok (g.setFinal f.1 (if ww then f.2 else 0)) := by
  obtain ⟨c1, t1, hc1, hc1'⟩ := natText_cons f.1
  have h1 := natText_length hs
  have h2 := hn.fits
  have hcn : name.count ',' = 0 := List.count_eq_zero.mpr hn.noComma
  have hct : (natText f.1).count ',' = 0 := List.count_eq_zero.mpr fun h => natText_no_comma f.1 _ h (by simp)
  have hpf : parseFinal readW name g (finalText showW ww name f) =
      .ok (some (g.setFinal f.1 (if ww then f.2 else 0))) := by
    cases ww with
    | false =>
      have hcount : (finalText showW false name f).count ',' = 1 := by
        unfold finalText
        simp only [List.count_append, List.count_cons, hcn, hct]
        rfl
      have hf : sscanf finalFormat1 (finalText showW false name f) = [name, natText f.1] := by
        unfold finalFormat1 finalText
        rw [sscanf_lits, sscanf_notIn _ _ hn.nonempty (nameNotIn hn.noComma) (by simp)]
        rw [hc1, List.cons_append, sscanf_comma _ _ _ hc1', ← List.cons_append, ← hc1, if_neg (by simp),
          sscanf_notIn _ _ (natText_ne_nil _) (natText_no_paren _) (by simp)]
        rfl
      have hov : overflows [name, natText f.1] = false := by
        simp only [overflows, List.any_cons, List.any_nil, Bool.or_false, Bool.or_eq_false_iff, decide_eq_false_iff_not]
        omega
      unfold parseFinal
      simp only [hcount, hf, hov, if_true, Bool.false_eq_true, if_false, ne_eq, not_true_eq_false, atoi_natText hs]
    | true =>
      have hk := hw rfl
      have hcw : (showW f.2).count ',' = 0 := List.count_eq_zero.mpr hk.plain.1
      have hcount : (finalText showW true name f).count ',' = 2 := by
        unfold finalText
        simp only [if_true, List.count_append, List.count_cons, hcn, hct, hcw]
        rfl
      have hf : sscanf finalFormat2 (finalText showW true name f) = [name, natText f.1, showW f.2] := by
        unfold finalFormat2 finalText
        rw [sscanf_lits, sscanf_notIn _ _ hn.nonempty (nameNotIn hn.noComma) (by simp)]
        rw [hc1, List.cons_append, sscanf_comma _ _ _ hc1', ← List.cons_append, ← hc1, if_pos rfl,
          sscanf_notIn _ _ (natText_ne_nil _) (natText_no_comma _) (by simp)]
        cases hsw : showW f.2 with
        | nil => exact absurd hsw hk.nonempty
        | cons c t =>
          have hcs := hk.noSpace c (by rw [hsw]; simp)
          rw [List.cons_append, sscanf_comma _ _ _ hcs, ← List.cons_append, sscanf_notIn _ _ (by simp) _ (by simp)]
          · rfl
          · intro d hd hd'
            rw [List.mem_singleton] at hd'; subst hd'
            exact hk.plain.2.2 (by rw [hsw]; exact hd)
      have hov : overflows [name, natText f.1, showW f.2] = false := by
        have := hk.fits
        simp only [overflows, List.any_cons, List.any_nil, Bool.or_false, Bool.or_eq_false_iff, decide_eq_false_iff_not]
        omega
      unfold parseFinal
      simp only [hcount, hf, hov, show ¬ (2 = 1) by omega, if_true, Bool.false_eq_true, if_false, hk.back, ne_eq,
        not_true_eq_false, atoi_natText hs]
  unfold parseLine
  rw [show parseArc readW junk name g (finalText showW ww name f) = .ok none from
    parseArc_other readW junk name g (c := 'f') (by decide), hpf]

private def symbolText (name : Str) (x : Sym) : Str :=
  "symbol(".toList ++ (name ++ ',' :: ' ' :: ('"' :: prologize x ++ ['"'] ++ [')', '.']))

private theorem symbolLine_eq (name : Str) (x : Sym) : symbolLine name x = symbolText name x ++ ['\n'] := by
  unfold symbolLine symbolText
  rw [show ", \"".toList = [',', ' ', '"'] from rfl, show "\").\n".toList = ['"', ')', '.', '\n'] from rfl]
  simp

private theorem parse_symbol {name : Str} {x : Sym} (hn : NameOK name) (h0 : x ≠ []) (h1 : x ≠ "%0".toList)
    (h2 : x ≠ "%?".toList) (h3 : x ≠ identity) (hsp : ∀ c ∈ x, isSpace c = false) (hco : ',' ∉ x)
    (hfit : (prologize x).length < 96) (readW : Str → Option Int) (junk : Str) (g : Graph) :
    parseLine readW junk name g (symbolText name x) = .ok (g.addSymbol x) := by
  have hpn : ∀ c ∈ prologize x, isSpace c = false ∧ c ≠ ',' := by
    intro c hc
    rcases mem_prologize hc with h | h
    · exact ⟨hsp c h, by rintro rfl; exact hco h⟩
    · exact (by decide : ∀ c ∈ ['\\', '"', '%', '0', '?'], isSpace c = false ∧ c ≠ ',') c h
  have hne : prologize x ≠ [] := by
    obtain ⟨y, hy, _, hy2⟩ := prologize_shape x
    intro h
    rw [h] at hy
    have : y = [] := eq_of_no_backslash hy.symm (by simp)
    exact h0 (hy2 this)
  have hcn : name.count ',' = 0 := List.count_eq_zero.mpr hn.noComma
  have hct : (prologize x).count ',' = 0 := List.count_eq_zero.mpr fun h => (hpn _ h).2 rfl
  have hcount : (symbolText name x).count ',' = 1 := by
    unfold symbolText
    simp only [List.count_append, List.count_cons, hcn, hct]
    rfl
  have hpf : parseFinal readW name g (symbolText name x) = .ok none := by
    have hf : sscanf finalFormat1 (symbolText name x) = [] := by
      unfold finalFormat1 symbolText
      rw [show lits "final(".toList = .lit 'f' :: lits "inal(".toList from rfl, List.cons_append,
        show "symbol(".toList = 's' :: "ymbol(".toList from rfl, List.cons_append, sscanf, if_neg (by decide)]
    unfold parseFinal
    simp only [hcount, hf, if_true, overflows, List.any_nil, Bool.false_eq_true, if_false]
  have hf : sscanf symbolFormat (symbolText name x) = [name, '"' :: prologize x ++ ['"'] ++ [')', '.']] := by
    unfold symbolFormat symbolText
    rw [sscanf_lits, sscanf_notIn _ _ hn.nonempty (nameNotIn hn.noComma) (by simp)]
    simp only [List.cons_append]
    rw [sscanf_comma _ _ _ (by decide), sscanf_word_end (by simp)]
    intro c hc
    simp only [List.mem_cons, List.mem_append, List.not_mem_nil, or_false] at hc
    rcases hc with rfl | (hc | rfl) | rfl | rfl
    · decide
    · exact (hpn c hc).1
    · decide
    · decide
    · decide
  have hov : overflows [name, '"' :: prologize x ++ ['"'] ++ [')', '.']] = false := by
    have := hn.fits
    simp only [overflows, List.any_cons, List.any_nil, Bool.or_false, Bool.or_eq_false_iff, decide_eq_false_iff_not,
      List.length_append, List.length_cons, List.length_nil]
    omega
  have hps : parseSymbol name g (symbolText name x) = .ok (some (g.addSymbol x)) := by
    unfold parseSymbol
    simp only [hf, hov, Bool.false_eq_true, if_false, ne_eq, not_true_eq_false]
    rw [stripEnd_append (by simp), Option.bind_some, stripQuotes_quoted hne]
    simp only []
    rw [C13, if_neg h1, if_neg h2, if_neg h3]
  unfold parseLine
  rw [show parseArc readW junk name g (symbolText name x) = .ok none from
    parseArc_other readW junk name g (c := 's') (by decide), hpf, hps]

private theorem readLoop_lines {readW : Str → Option Int} {junk name : Str} : ∀ (es : List (Str × (Graph → Graph))) (n : Nat)
    (g : Graph) (tail : Str), (∀ e ∈ es, '\n' ∉ e.1 ∧ e.1.length < 254 ∧ e.1.getLast? = some '.' ∧
      ∀ g, parseLine readW junk name g e.1 = .ok (e.2 g)) →
    readLoop readW junk name (es.length + n) g ⟨(es.map fun e => e.1 ++ ['\n']).flatten ++ tail, false⟩ =
      readLoop readW junk name n (es.foldl (fun g e => e.2 g) g) ⟨tail, false⟩
  | [], n, g, tail, _ => by simp
  | e :: es, n, g, tail, h => by
    obtain ⟨h1, h2, h3, h4⟩ := h e (by simp)
    rw [List.map_cons, List.flatten_cons, List.length_cons, List.foldl_cons,
      show es.length + 1 + n = es.length + n + 1 by omega, readLoop]
    rw [show (e.1 ++ ['\n']) ++ (es.map fun e => e.1 ++ ['\n']).flatten ++ tail =
      e.1 ++ '\n' :: ((es.map fun e => e.1 ++ ['\n']).flatten ++ tail) by simp, fgets_line h1 (by omega)]
    have hne : e.1 ≠ [] := by intro h; rw [h] at h3; simp at h3
    simp only [stripNewlines_line h3 (by decide) (by decide), if_neg hne, h4]
    exact readLoop_lines es n _ tail fun e' h' => h e' (by simp [h'])

/-- What a reader must give back: the transitions of every state in order, the final weights (0 if weights were not
written), no new states, and the alphabet. -/
structure SameTransducer (ww : Bool) (g g' : Graph) : Prop where
  arcs : ∀ s, g'.arcs s = (g.arcs s).map fun a => if ww then a else { a with weight := 0 }
  final : ∀ s, g'.final s = (g.final s).map fun w => if ww then w else 0
  noNew : g'.states.length ≤ g.states.length
  alphabet : ∀ x, x ∈ g'.alphabet ↔ x ∈ g.alphabet

private def symOps (name : Str) (g : Graph) : List (Str × (Graph → Graph)) :=
  (unusedSymbols g).map fun x => (symbolText name x, fun g => g.addSymbol x)

private def arcList (g : Graph) : List (Nat × Arc) := g.states.zipIdx.flatMap fun e => e.1.map fun a => (e.2, a)

private def arcOps (showW : Int → Str) (ww : Bool) (name : Str) (g : Graph) : List (Str × (Graph → Graph)) :=
  (arcList g).map fun e =>
    (arcText showW ww name e.1 e.2, fun g => g.addTransition e.1 { e.2 with weight := if ww then e.2.weight else 0 })

private def finalOps (showW : Int → Str) (ww : Bool) (name : Str) (g : Graph) : List (Str × (Graph → Graph)) :=
  g.finals.map fun f => (finalText showW ww name f, fun g => g.setFinal f.1 (if ww then f.2 else 0))

private theorem mem_arcList {g : Graph} {s : Nat} {a : Arc} : (s, a) ∈ arcList g ↔ a ∈ g.arcs s := by
  unfold arcList
  simp only [List.mem_flatMap, Prod.exists, List.mem_zipIdx_iff_getElem?, List.mem_map, Prod.mk.injEq]
  constructor
  · rintro ⟨l, i, hl, b, hb, rfl, rfl⟩
    simpa [Graph.arcs, hl] using hb
  · intro ha
    have hs := Graph.lt_of_mem_arcs ha
    refine ⟨g.states[s], s, List.getElem?_eq_getElem hs, a, ?_, rfl, rfl⟩
    simpa [Graph.arcs, List.getElem?_eq_getElem hs] using ha

private theorem last_dot (s : Str) : (s ++ [')', '.']).getLast? = some '.' := by simp

private theorem ops_ok {showW : Int → Str} {readW : Str → Option Int} {ww : Bool} {name : Str} {g : Graph} (hg : WF g)
    (hm : FinalMap g) (h : CanWrite showW readW ww name g) (junk : Str) :
    ∀ e ∈ symOps name g ++ arcOps showW ww name g ++ finalOps showW ww name g,
      '\n' ∉ e.1 ∧ e.1.length < 254 ∧ e.1.getLast? = some '.' ∧
      ∀ g, parseLine readW junk name g e.1 = .ok (e.2 g) := by
  have hfew := h.few
  have hname : '\n' ∉ name := fun h' => absurd (h.named.noSpace _ h') (by decide)
  have hnum : ∀ n, '\n' ∉ natText n := fun n h' => absurd (natText_digits n _ h') (by decide)
  intro e he
  rw [List.mem_append, List.mem_append] at he
  rcases he with (he | he) | he
  · unfold symOps at he
    obtain ⟨x, hx, rfl⟩ := List.mem_map.mp he
    simp only [unusedSymbols, List.mem_filter, decide_eq_true_eq, not_or] at hx
    obtain ⟨hx1, hx2, hx3, hx4, hx5⟩ := hx
    obtain ⟨k0, k1, k2, k3, k4, k5, k6⟩ := h.unused x hx1 hx2 hx3 hx4 hx5
    rw [symbolLine_eq, List.length_append] at k6
    refine ⟨?_, by simp at k6 ⊢; omega, ?_, parse_symbol h.named k0 k1 k2 hx5 k3 k4 k5 readW junk⟩
    · unfold symbolText
      simp only [List.mem_append, List.mem_cons, not_or, List.not_mem_nil, not_false_eq_true, and_true]
      refine ⟨by decide, hname, by decide, by decide, ⟨⟨by decide, ?_⟩, by decide⟩, by decide, by decide⟩
      intro hp
      rcases mem_prologize hp with hp | hp
      · exact absurd (k3 _ hp) (by decide)
      · exact absurd hp (by decide)
    · unfold symbolText
      rw [show "symbol(".toList ++ (name ++ ',' :: ' ' :: ('"' :: prologize x ++ ['"'] ++ [')', '.'])) =
        ("symbol(".toList ++ (name ++ ',' :: ' ' :: ('"' :: prologize x ++ ['"']))) ++ [')', '.'] by simp]
      exact last_dot _
  · unfold arcOps at he
    obtain ⟨⟨s, a⟩, hx, rfl⟩ := List.mem_map.mp he
    rw [mem_arcList] at hx
    obtain ⟨k1, k2, k3, k4, k5, k6, k7, k8⟩ := h.arcs s a hx
    have l1 := Graph.lt_of_mem_arcs hx
    have l2 := hg.targets s a hx
    rw [arcLine_eq, List.length_append] at k8
    refine ⟨?_, by simp at k8 ⊢; omega, ?_, parse_arc h.named (by omega) (by omega) k1 k2 k3 k4 k5 k6 k7 junk⟩
    · unfold arcText
      simp only [List.mem_append, List.mem_cons, not_or, List.not_mem_nil, not_false_eq_true, and_true]
      refine ⟨by decide, hname, by decide, by decide, hnum s, by decide, by decide, hnum _, by decide, by decide,
        ⟨?_, ?_⟩, by decide, by decide⟩
      · intro hp
        rcases mem_arcSymbols hp with hp | hp
        · exact k5 hp
        · exact absurd hp (by decide)
      · cases ww with
        | false => simp
        | true =>
          rw [if_pos rfl, List.mem_append, not_or]
          exact ⟨by decide, fun hp => absurd ((k6 rfl).noSpace _ hp) (by decide)⟩
    · unfold arcText
      rw [show "arc(".toList ++ (name ++ ',' :: ' ' :: (natText s ++ ',' :: ' ' :: (natText a.target ++ ',' :: ' ' ::
        (arcSymbols a.inp a.out ++ (if ww then ", ".toList ++ showW a.weight else []) ++ [')', '.'])))) =
        ("arc(".toList ++ (name ++ ',' :: ' ' :: (natText s ++ ',' :: ' ' :: (natText a.target ++ ',' :: ' ' ::
        (arcSymbols a.inp a.out ++ (if ww then ", ".toList ++ showW a.weight else [])))))) ++ [')', '.'] by simp]
      exact last_dot _
  · unfold finalOps at he
    obtain ⟨f, hx, rfl⟩ := List.mem_map.mp he
    obtain ⟨k1, k2⟩ := h.finals f hx
    have l1 := hg.finals f.1 f.2 ((hm.iff f.1 f.2).mpr hx)
    rw [finalLine_eq, List.length_append] at k2
    refine ⟨?_, by simp at k2 ⊢; omega, ?_, parse_final h.named (by omega) k1 junk⟩
    · unfold finalText
      simp only [List.mem_append, List.mem_cons, not_or]
      refine ⟨by decide, hname, by decide, by decide, hnum _, ?_⟩
      cases ww with
      | false => simp
      | true =>
        rw [if_pos rfl]
        simp only [List.mem_append, List.mem_cons, not_or, List.not_mem_nil, not_false_eq_true, and_true]
        exact ⟨by decide, by decide, fun hp => absurd ((k1 rfl).noSpace _ hp) (by decide), by decide, by decide⟩
    · unfold finalText
      cases ww with
      | false =>
        rw [if_neg (by simp), show "final(".toList ++ (name ++ ',' :: ' ' :: (natText f.1 ++ [')', '.'])) =
          ("final(".toList ++ (name ++ ',' :: ' ' :: natText f.1)) ++ [')', '.'] by simp]
        exact last_dot _
      | true =>
        rw [if_pos rfl, show "final(".toList ++ (name ++ ',' :: ' ' :: (natText f.1 ++ ',' :: ' ' :: (showW f.2 ++ [')', '.']))) =
          ("final(".toList ++ (name ++ ',' :: ' ' :: (natText f.1 ++ ',' :: ' ' :: showW f.2))) ++ [')', '.'] by simp]
        exact last_dot _

private theorem write_eq {showW : Int → Str} {ww : Bool} {name : Str} {g : Graph} (hn : NameOK name) :
    write showW ww name g = .ok (networkLine name ++
      ((symOps name g ++ arcOps showW ww name g ++ finalOps showW ww name g).map fun e => e.1 ++ ['\n']).flatten) := by
  unfold write
  rw [if_neg hn.noComma]
  congr 1
  rw [List.append_assoc, List.append_assoc, List.map_append, List.map_append, List.flatten_append, List.flatten_append,
    List.append_assoc]
  congr 1
  congr 1
  · unfold symOps
    rw [List.map_map]
    congr 1
    apply List.map_congr_left
    intro x _
    exact symbolLine_eq name x
  congr 1
  · unfold arcOps arcList
    rw [List.map_map, List.map_flatMap]
    congr 1
    apply List.flatMap_congr
    intro e _
    rw [List.map_map]
    apply List.map_congr_left
    intro a _
    exact arcLine_eq showW ww name e.2 a
  · unfold finalOps
    rw [List.map_map]
    congr 1
    apply List.map_congr_left
    intro f _
    exact finalLine_eq showW ww name f

private theorem zipIdx_pick (t : Nat) : ∀ (l : List (List Arc)) (k : Nat),
    (((l.zipIdx k).flatMap fun e => e.1.map fun a => (e.2, a)).filter (fun e => e.1 = t)).map (·.2) =
      if k ≤ t then (l[t - k]?).getD [] else []
  | [], k => by simp
  | x :: l, k => by
    rw [List.zipIdx_cons, List.flatMap_cons, List.filter_append, List.map_append, zipIdx_pick t l (k + 1)]
    by_cases h : k = t
    · subst h
      rw [if_neg (by omega), if_pos (by omega), List.append_nil]
      simp [List.filter_map, Function.comp_def]
    · have : ((x.map fun a => (k, a)).filter (fun e => e.1 = t)) = [] := by
        rw [List.filter_eq_nil_iff]
        intro e he
        obtain ⟨a, _, rfl⟩ := List.mem_map.mp he
        simpa using h
      rw [this, List.map_nil, List.nil_append]
      by_cases h' : k + 1 ≤ t
      · rw [if_pos h', if_pos (by omega), show t - k = (t - (k + 1)) + 1 by omega, List.getElem?_cons_succ]
      · rw [if_neg h', if_neg (by omega)]

open Classical in
private theorem foldl_final (ww : Bool) (t : Nat) (F : Option Int) : ∀ (fs : List (Nat × Int)) (g : Graph),
    (∀ w, (t, w) ∈ fs → F = some w) →
    (fs.foldl (fun g f => g.setFinal f.1 (if ww then f.2 else 0)) g).final t =
      if ∃ w, (t, w) ∈ fs then F.map (fun w => if ww then w else 0) else g.final t
  | [], g, _ => by simp
  | (s, w) :: fs, g, h => by
    rw [List.foldl_cons, foldl_final ww t F fs _ fun w hw => h w (by simp [hw]), Graph.final_setFinal]
    by_cases hs : s = t
    · subst hs
      have hF := h w (by simp)
      rw [if_pos (c := ∃ w', _ ∈ (s, w) :: fs) ⟨w, by simp⟩, if_pos rfl, hF]
      simp
    · rw [if_neg (c := t = s) fun e => hs e.symm]
      congr 1
      simp only [List.mem_cons, Prod.mk.injEq]
      have : ∀ w', ¬ (t = s ∧ w' = w) := fun w' h => hs h.1.symm
      simp [this]

private theorem foldl_setFinal_arcs (ww : Bool) (t : Nat) (fs : List (Nat × Int)) (g : Graph) :
    (fs.foldl (fun g f => g.setFinal f.1 (if ww then f.2 else 0)) g).arcs t = g.arcs t ∧
    (fs.foldl (fun g f => g.setFinal f.1 (if ww then f.2 else 0)) g).alphabet = g.alphabet := by
  induction fs generalizing g with
  | nil => exact ⟨rfl, rfl⟩
  | cons f fs ih =>
    rw [List.foldl_cons, (ih _).1, (ih _).2, Graph.arcs_setFinal]
    exact ⟨rfl, rfl⟩

private theorem foldl_setFinal_length (ww : Bool) (N : Nat) : ∀ (fs : List (Nat × Int)) (g : Graph), g.states.length ≤ N →
    (∀ f ∈ fs, f.1 < N) → (fs.foldl (fun g f => g.setFinal f.1 (if ww then f.2 else 0)) g).states.length ≤ N
  | [], g, h, _ => h
  | f :: fs, g, h, h' => by
    rw [List.foldl_cons]
    apply foldl_setFinal_length ww N fs _ _ fun f hf => h' f (by simp [hf])
    rw [Graph.length_setFinal]
    have := h' f (by simp)
    omega

private theorem foldl_addTransition_length (N : Nat) : ∀ (l : List (Nat × Arc)) (g : Graph), g.states.length ≤ N →
    (∀ e ∈ l, e.1 < N ∧ e.2.target < N) → (l.foldl (fun g e => g.addTransition e.1 e.2) g).states.length ≤ N
  | [], g, h, _ => h
  | e :: l, g, h, h' => by
    rw [List.foldl_cons]
    apply foldl_addTransition_length N l _ _ fun e he => h' e (by simp [he])
    rw [Graph.length_addTransition]
    have := h' e (by simp)
    omega

private theorem ops_same (ww : Bool) (showW : Int → Str) (name : Str) {g : Graph} (hg : WF g) (ha : AlphaOK g)
    (hm : FinalMap g) : SameTransducer ww g
      ((symOps name g ++ arcOps showW ww name g ++ finalOps showW ww name g).foldl (fun g e => e.2 g) Graph.init) := by
  have e1 : ∀ g0, (symOps name g).foldl (fun g e => e.2 g) g0 = (unusedSymbols g).foldl Graph.addSymbol g0 := by
    intro g0; unfold symOps; rw [List.foldl_map]
  have e2 : ∀ g0, (arcOps showW ww name g).foldl (fun g e => e.2 g) g0 =
      ((arcList g).map fun e => (e.1, { e.2 with weight := if ww then e.2.weight else 0 })).foldl
        (fun g e => g.addTransition e.1 e.2) g0 := by
    intro g0; unfold arcOps; rw [List.foldl_map, List.foldl_map]
  have e3 : ∀ g0, (finalOps showW ww name g).foldl (fun g e => e.2 g) g0 =
      g.finals.foldl (fun g f => g.setFinal f.1 (if ww then f.2 else 0)) g0 := by
    intro g0; unfold finalOps; rw [List.foldl_map]
  have hsym : ∀ (l : List Sym) (g0 : Graph), (l.foldl Graph.addSymbol g0).states = g0.states ∧
      (l.foldl Graph.addSymbol g0).finals = g0.finals ∧
      ∀ x, x ∈ (l.foldl Graph.addSymbol g0).alphabet ↔ x ∈ l ∨ x ∈ g0.alphabet := by
    intro l
    induction l with
    | nil => simp
    | cons y l ih =>
      intro g0
      rw [List.foldl_cons]
      obtain ⟨h1, h2, h3⟩ := ih (g0.addSymbol y)
      refine ⟨h1, h2, fun x => ?_⟩
      rw [h3, List.mem_cons]
      show x ∈ l ∨ x ∈ setInsert g0.alphabet y ↔ _
      rw [mem_setInsert]
      constructor
      · rintro (h | h | h)
        · exact Or.inl (Or.inr h)
        · exact Or.inl (Or.inl h)
        · exact Or.inr h
      · rintro ((h | h) | h)
        · exact Or.inr (Or.inl h)
        · exact Or.inl h
        · exact Or.inr (Or.inr h)
  rw [List.foldl_append, List.foldl_append, e1, e2, e3]
  obtain ⟨s1, s2, s3⟩ := hsym (unusedSymbols g) Graph.init
  have harcs0 : ∀ s, ((unusedSymbols g).foldl Graph.addSymbol Graph.init).arcs s = [] := by
    intro s
    simp only [Graph.arcs, s1]
    cases s <;> simp [Graph.init]
  refine ⟨?_, ?_, ?_, ?_⟩
  · intro s
    rw [(foldl_setFinal_arcs ww s _ _).1, Graph.foldl_addTransition_arcs, harcs0, List.nil_append, List.filter_map,
      List.map_map]
    have hz := zipIdx_pick s g.states 0
    simp only [Nat.zero_le, if_true, Nat.sub_zero] at hz
    rw [show g.arcs s = (g.states[s]?).getD [] from rfl, ← hz, List.map_map]
    show List.map _ (List.filter _ (arcList g)) = List.map _ (List.filter _ (arcList g))
    congr 1
    funext e
    cases ww <;> rfl
  · intro s
    rw [foldl_final ww s (g.final s)]
    · split
      · rfl
      · rename_i h
        rw [Graph.foldl_addTransition_final]
        cases hf : g.final s with
        | none =>
          simp only [Graph.final, s2]
          rfl
        | some w => exact absurd ⟨w, (hm.iff s w).mp hf⟩ h
    · intro w hw
      exact (hm.iff s w).mpr hw
  · apply foldl_setFinal_length
    · apply foldl_addTransition_length
      · rw [s1]
        have := hg.nonempty
        simp only [Graph.init, List.length_singleton]; omega
      · intro e he
        obtain ⟨⟨s, a⟩, hx, rfl⟩ := List.mem_map.mp he
        rw [mem_arcList] at hx
        exact ⟨Graph.lt_of_mem_arcs hx, hg.targets s a hx⟩
    · intro f hf
      exact hg.finals f.1 f.2 ((hm.iff f.1 f.2).mpr hf)
  · intro x
    rw [(foldl_setFinal_arcs ww 0 _ _).2, Graph.foldl_addTransition_alphabet, s3]
    constructor
    · rintro ((h | h) | ⟨e, he, h⟩)
      · unfold unusedSymbols at h
        rw [List.mem_filter] at h
        exact h.1
      · simp only [Graph.init, List.mem_cons, List.not_mem_nil, or_false] at h
        rcases h with rfl | rfl | rfl
        · exact ha.eps
        · exact ha.unk
        · exact ha.idn
      · obtain ⟨⟨s, a⟩, hx, rfl⟩ := List.mem_map.mp he
        rw [mem_arcList] at hx
        rcases h with rfl | rfl
        · exact (ha.arcs s a hx).1
        · exact (ha.arcs s a hx).2
    · intro h
      by_cases hu : x ∈ g.symbolsUsed
      · obtain ⟨s, a, hx, h⟩ := (Graph.mem_symbolsUsed g x).mp hu
        exact Or.inr ⟨_, List.mem_map.mpr ⟨(s, a), mem_arcList.mpr hx, rfl⟩, h⟩
      · left
        by_cases h1 : x = epsilon
        · right; simp [Graph.init, h1]
        by_cases h2 : x = unknown
        · right; simp [Graph.init, h2]
        by_cases h3 : x = identity
        · right; simp [Graph.init, h3]
        left
        unfold unusedSymbols
        rw [List.mem_filter]
        refine ⟨h, ?_⟩
        rw [decide_eq_true_eq, not_or, not_or, not_or]
        exact ⟨hu, h1, h2, h3⟩

/-- **C55** (part).  A transducer written as prolog text under a name and read back from the file has the same name,
transitions, final weights and alphabet, whatever the uninitialised buffer of the reader contains; an empty line ends
the transducer, so further text may follow.  Missing from the full claim: unmentioned states are lost as in AT&T text,
symbols that end in a backslash are refused (`C13_arc_violated`), the spellings `%0` and `%?` are changed, and reading
from a stream does not work (`C55_stream_violated`). -/
theorem C55_partial (showW : Int → Str) (readW : Str → Option Int) (ww : Bool) (name : Str) (g : Graph) (hg : WF g)
    (ha : AlphaOK g) (hm : FinalMap g) (h : CanWrite showW readW ww name g) : ∃ text g',
      write showW ww name g = .ok text ∧ SameTransducer ww g g' ∧ ∀ junk,
        read readW junk ⟨text, false⟩ = .ok (name, g', ⟨[], true⟩) ∧
        ∀ rest, read readW junk ⟨text ++ '\n' :: rest, false⟩ = .ok (name, g', ⟨rest, false⟩) := by
  refine ⟨_, _, write_eq h.named, ops_same ww showW name hg ha hm, fun junk => ?_⟩
  have hok := ops_ok hg hm h junk
  have hnet : ∀ tail, firstLine ((networkLine name ++ tail).length + 1) ⟨networkLine name ++ tail, false⟩ =
      some ("network(".toList ++ name ++ [')', '.'], ⟨tail, false⟩) := by
    intro tail
    have hname : '\n' ∉ name := fun h' => absurd (h.named.noSpace _ h') (by decide)
    have hl : networkLine name ++ tail = ("network(".toList ++ name ++ [')', '.']) ++ '\n' :: tail := by
      unfold networkLine
      rw [show ").\n".toList = [')', '.', '\n'] from rfl]; simp
    rw [hl, firstLine, fgets_line]
    · simp only [stripNewlines_line (last_dot _) (by decide : '.' ≠ '\n') (by decide)]
      rw [if_neg]
      rw [show "network(".toList = 'n' :: "etwork(".toList from rfl]; simp
    · simp only [List.mem_append, not_or]
      exact ⟨⟨by decide, hname⟩, by decide⟩
    · have := h.named.fits
      simp only [List.length_append]
      simp only [List.length_cons, List.length_nil]
      have : "network(".toList.length = 8 := by decide
      omega
  have hpn : parseNetwork ("network(".toList ++ name ++ [')', '.']) = .ok (some name) := by
    have hf : sscanf networkFormat ("network(".toList ++ name ++ [')', '.']) = [name ++ [')', '.']] := by
      unfold networkFormat
      rw [List.append_assoc, sscanf_lits, sscanf_word_end (by simp)]
      intro c hc
      rw [List.mem_append] at hc
      rcases hc with hc | hc
      · exact h.named.noSpace c hc
      · exact (by decide : ∀ c ∈ [')', '.'], isSpace c = false) c hc
    have hov : overflows [name ++ [')', '.']] = false := by
      have := h.named.fits
      simp only [overflows, List.any_cons, List.any_nil, Bool.or_false, decide_eq_false_iff_not, List.length_append,
        List.length_cons, List.length_nil]
      omega
    unfold parseNetwork
    simp only [hf, hov, Bool.false_eq_true, if_false, stripEnd_append h.named.nonempty]
  have hlen : ∀ es : List (Str × (Graph → Graph)), es.length ≤ ((es.map fun e => e.1 ++ ['\n']).flatten).length := by
    intro es
    induction es with
    | nil => simp
    | cons e es ih =>
      rw [List.map_cons, List.flatten_cons, List.length_append, List.length_append, List.length_cons]
      simp only [List.length_cons, List.length_nil]; omega
  have key : ∀ tail, ∃ n, read readW junk ⟨networkLine name ++
      ((symOps name g ++ arcOps showW ww name g ++ finalOps showW ww name g).map fun e => e.1 ++ ['\n']).flatten ++ tail,
        false⟩ =
      match readLoop readW junk name (n + 1)
        ((symOps name g ++ arcOps showW ww name g ++ finalOps showW ww name g).foldl (fun g e => e.2 g) Graph.init)
        ⟨tail, false⟩ with
      | .ok (g, f'') => .ok (name, g, f'')
      | .throws => .throws
      | .undefined => .undefined := by
    intro tail
    have hl := hlen (symOps name g ++ arcOps showW ww name g ++ finalOps showW ww name g)
    refine ⟨(((symOps name g ++ arcOps showW ww name g ++ finalOps showW ww name g).map fun e => e.1 ++ ['\n']).flatten ++
      tail).length - (symOps name g ++ arcOps showW ww name g ++ finalOps showW ww name g).length, ?_⟩
    unfold read
    rw [List.append_assoc, hnet]
    simp only [hpn]
    rw [show (((symOps name g ++ arcOps showW ww name g ++ finalOps showW ww name g).map fun e => e.1 ++ ['\n']).flatten ++
      tail).length + 1 = (symOps name g ++ arcOps showW ww name g ++ finalOps showW ww name g).length +
      ((((symOps name g ++ arcOps showW ww name g ++ finalOps showW ww name g).map fun e => e.1 ++ ['\n']).flatten ++
      tail).length - (symOps name g ++ arcOps showW ww name g ++ finalOps showW ww name g).length + 1) by
        rw [List.length_append (as := ((symOps name g ++ arcOps showW ww name g ++ finalOps showW ww name g).map fun e => e.1 ++ ['\n']).flatten)]; omega]
    rw [readLoop_lines _ _ _ _ hok]
    rfl
  constructor
  · obtain ⟨n, hn⟩ := key []
    rw [List.append_nil] at hn
    rw [hn, readLoop]; rfl
  · intro rest
    obtain ⟨n, hn⟩ := key ('\n' :: rest)
    rw [hn, readLoop]
    have := fgets_line (size := 255) (l := []) (s := rest) (e := false) (by simp) (by decide)
    rw [List.nil_append] at this
    rw [this]; rfl

/-- **C55** (corollary).  With weights, the transducer read back accepts the same sequences with the same weights. -/
theorem C55_language (showW : Int → Str) (readW : Str → Option Int) (name : Str) (g : Graph) (hg : WF g)
    (ha : AlphaOK g) (hm : FinalMap g) (h : CanWrite showW readW true name g) : ∃ text g',
      write showW true name g = .ok text ∧ (∀ junk, read readW junk ⟨text, false⟩ = .ok (name, g', ⟨[], true⟩)) ∧
      ∀ l w, Accepts g' l w ↔ Accepts g l w := by
  obtain ⟨text, g', ht, hs, hr⟩ := C55_partial showW readW true name g hg ha hm h
  refine ⟨text, g', ht, fun junk => (hr junk).1, ?_⟩
  have ha : ∀ s, g'.arcs s = g.arcs s := fun s => by rw [hs.arcs]; simp
  have hf : ∀ s, g'.final s = g.final s := fun s => by rw [hs.final]; simp
  have hp : ∀ {g₁ g₂ : Graph}, (∀ s, g₁.arcs s = g₂.arcs s) → ∀ {s l w q}, Path g₁ s l w q → Path g₂ s l w q := by
    intro g₁ g₂ hh s l w q hp
    induction hp with
    | nil s => exact .nil s
    | cons hm _ ih => exact .cons (by rw [← hh]; exact hm) ih
  intro l w
  constructor
  · rintro ⟨q, v, f, h1, h2, h3⟩
    exact ⟨q, v, f, hp ha h1, by rw [← hf]; exact h2, h3⟩
  · rintro ⟨q, v, f, h1, h2, h3⟩
    exact ⟨q, v, f, hp (fun s => (ha s).symm) h1, by rw [hf]; exact h2, h3⟩

/-- An example: a transition `a":b` of weight 3 into a final state of weight 1, and an unused symbol `%`. -/
def exGraph : Graph :=
  { states := [[⟨1, "a\"".toList, "b".toList, 3⟩], []], finals := [(1, 1)],
    alphabet := [epsilon, unknown, identity, "a\"".toList, "b".toList, "%".toList] }

/-- Weights of the example, printed without a fraction. -/
def exShow (w : Int) : Str := natText w.toNat

/-- Weights of the example, read back. -/
def exRead (s : Str) : Option Int := (atoi s).map fun n => (n : Int)

example : write exShow true "N".toList exGraph =
    .ok "network(N).\nsymbol(N, \"%\").\narc(N, 0, 1, \"a\\\"\":\"b\", 3).\nfinal(N, 1, 1).\n".toList := by decide +kernel

private theorem exArcs (s : Nat) (a : Arc) : a ∈ exGraph.arcs s ↔ s = 0 ∧ a = ⟨1, "a\"".toList, "b".toList, 3⟩ := by
  match s with
  | 0 => rw [show exGraph.arcs 0 = [⟨1, "a\"".toList, "b".toList, 3⟩] from rfl, List.mem_singleton]; simp only [true_and]
  | 1 => rw [show exGraph.arcs 1 = [] from rfl]; simp only [List.not_mem_nil, false_iff]; omega
  | n + 2 => rw [show exGraph.arcs (n + 2) = [] from rfl]; simp only [List.not_mem_nil, false_iff]; omega

private theorem exWeight : ∀ w ∈ [(3 : Int), 1], WeightOK exShow exRead w := by
  intro w hw
  simp only [List.mem_cons, List.not_mem_nil, or_false] at hw
  rcases hw with rfl | rfl <;>
    exact ⟨by decide +kernel, by decide +kernel, by decide +kernel, by decide +kernel, by decide +kernel⟩

example : CanWrite exShow exRead true "N".toList exGraph where
  named := ⟨by decide, by decide, by decide, by decide⟩
  few := by decide +kernel
  arcs := by
    intro s a ha; rw [exArcs] at ha; obtain ⟨rfl, rfl⟩ := ha
    exact ⟨⟨by decide, by decide, by decide, by decide⟩, ⟨by decide, by decide, by decide, by decide⟩, by decide +kernel,
      by decide +kernel, by decide +kernel, fun _ => exWeight _ (by simp), by decide +kernel, by decide +kernel⟩
  finals := by
    intro f hf
    rw [show exGraph.finals = [(1, 1)] from rfl, List.mem_singleton] at hf; subst hf
    exact ⟨fun _ => exWeight _ (by simp), by decide +kernel⟩
  unused := by decide +kernel

example : WF exGraph where
  nonempty := by decide +kernel
  targets := by intro s a ha; rw [exArcs] at ha; obtain ⟨rfl, rfl⟩ := ha; decide
  finals := by
    intro s w h
    match s with
    | 0 => rw [show exGraph.final 0 = none from rfl] at h; simp at h
    | 1 => decide
    | n + 2 => simp [exGraph, Graph.final, mapGet] at h

example : FinalMap exGraph := by unfold FinalMap; decide +kernel

/-- **C55** (negation, streams).  Reading from an input stream refuses every text that begins with the line of a
network (in fact every text of more than one line). -/
theorem C55_stream_violated (name rest : Str) (h : NameOK name) : readStream ⟨networkLine name ++ rest, false⟩ = .throws := by
  have hname : '\n' ∉ name := fun h' => absurd (h.noSpace _ h') (by decide)
  have hl : networkLine name ++ rest = ("network(".toList ++ name ++ [')', '.']) ++ '\n' :: rest := by
    unfold networkLine
    rw [show ").\n".toList = [')', '.', '\n'] from rfl]; simp
  have hk : takeLine 255 (networkLine name ++ rest) = ("network(".toList ++ name ++ [')', '.'] ++ ['\n'], rest, false) := by
    rw [hl]
    apply takeLine_line 255
    · simp only [List.mem_append, not_or]
      exact ⟨⟨by decide, hname⟩, by decide⟩
    · have := h.fits
      simp only [List.length_append]
      simp only [List.length_cons, List.length_nil]
      have : "network(".toList.length = 8 := by decide
      omega
  unfold readStream
  simp only [hk]
  rfl

end Hfst.Prolog
