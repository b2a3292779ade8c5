import Verif.Model.Att
import Verif.Lemmas.Text
import Verif.Lemmas.Graph
import Verif.Spec.Path
import Mathlib.Tactic.ByContra

/-! # AT&T text: symbols and transducers (C11, C12) -/
namespace Hfst.Att
open Hfst.StdString Hfst.Basic Hfst.Text

/-! ## Specification -/

/-- The codes that stand for other text in an AT&T file. -/
def codes : List Str := ["@_SPACE_@".toList, "@0@".toList, "@_TAB_@".toList, "@_COLON_@".toList]

/-- None of the codes occurs in the symbol. -/
def NoCode (x : Sym) : Prop := ∀ c ∈ codes, ¬ c <:+: x

/-- Symbols that survive: epsilon itself; symbols without blanks in which neither a code nor the spelling of epsilon
occurs; symbols without `@`, except those in which a blank, one of four words and a blank follow each other. -/
def Preserved (x : Sym) : Prop :=
  x = epsilon ∨
  (' ' ∉ x ∧ '\t' ∉ x ∧ NoCode x ∧ ¬ epsilon <:+: x) ∨
  ('@' ∉ x ∧ ¬ " _EPSILON_SYMBOL_ ".toList <:+: x ∧ ¬ "\t_SPACE_ ".toList <:+: x ∧
    ¬ "\t_SPACE_\t".toList <:+: x ∧ ¬ "\t0\t".toList <:+: x)

/-! ## Writing and reading one symbol -/

section
attribute [local irreducible] replaceGo

/-- Space encoded. -/
private def encS (c : Char) : Str := if c = ' ' then "@_SPACE_@".toList else [c]
/-- Tab encoded. -/
private def encT (c : Char) : Str := if c = '\t' then "@_TAB_@".toList else [c]
/-- Space and tab encoded. -/
private def enc (c : Char) : Str := if c = ' ' then "@_SPACE_@".toList else encT c

private theorem encS_shape (c : Char) : encS c = [c] ∨ ∃ t, encS c = '@' :: t := by
  unfold encS; split
  · exact Or.inr ⟨_, rfl⟩
  · exact Or.inl rfl

private theorem encT_shape (c : Char) : encT c = [c] ∨ ∃ t, encT c = '@' :: t := by
  unfold encT; split
  · exact Or.inr ⟨_, rfl⟩
  · exact Or.inl rfl

private theorem enc_shape (c : Char) : enc c = [c] ∨ ∃ t, enc c = '@' :: t := by
  unfold enc; split
  · exact Or.inr ⟨_, rfl⟩
  · exact encT_shape c

private theorem suffix_cons_iff {b : Str} {c : Char} {l : Str} : b <:+ c :: l ↔ b = c :: l ∨ b <:+ l :=
  List.suffix_cons_iff

/-- The block `@...@` is copied if the text does not match at its first and at its last character. -/
private theorem replaceGo_code {n : Str} (r : Str) (w s : Str) (hw : '@' ∉ w) (hn : ∃ t, n = '@' :: t)
    (h1 : ¬ n <+: '@' :: (w ++ '@' :: s)) (h2 : ¬ n <+: '@' :: s) :
    replaceGo n r 0 ('@' :: w ++ ['@'] ++ s) = '@' :: w ++ ['@'] ++ replaceGo n r 0 s := by
  obtain ⟨t, rfl⟩ := hn
  apply replaceGo_block
  intro b hb hs hp
  rw [List.cons_append, suffix_cons_iff] at hs
  rcases hs with rfl | hs
  · simp only [List.cons_append, List.append_assoc, List.nil_append] at hp; exact h1 hp
  · have hb' : b = ['@'] ∨ ∃ c b', b = c :: b' ∧ c ∈ w := by
      obtain ⟨u, hu⟩ := hs
      rcases List.append_eq_append_iff.mp hu with ⟨v, rfl, rfl⟩ | ⟨v, hv, hv'⟩
      · cases v with
        | nil => exact Or.inl rfl
        | cons c v => exact Or.inr ⟨c, v ++ ['@'], rfl, by simp⟩
      · cases v with
        | nil => simp only [List.nil_append] at hv'; exact Or.inl hv'.symm
        | cons c v =>
          simp only [List.cons_append, List.cons.injEq] at hv'
          have := List.append_eq_nil_iff.mp hv'.2.symm
          exact absurd this.2 hb
    rcases hb' with rfl | ⟨c, b', rfl, hc⟩
    · exact h2 (by simpa using hp)
    · rw [List.cons_append, List.cons_prefix_cons] at hp
      exact hw (by rw [hp.1]; exact hc)

private theorem infix_cons_of_prefix {p : Str} {c d : Char} {x x' : Str} (h : x = p ++ d :: x') :
    (c :: p ++ [d]) <:+: c :: x := by
  refine List.IsPrefix.isInfix ⟨x', ?_⟩
  rw [h]; simp

private theorem not_infix_tail {p : Str} {c : Char} {x : Str} (h : ¬ p <:+: c :: x) : ¬ p <:+: x :=
  fun h' => h (h'.trans (List.suffix_cons c x).isInfix)

/-- The second replacement done when writing changes nothing. -/
private theorem write_eps : ∀ x : Str, '@' ∉ x → ¬ " _EPSILON_SYMBOL_ ".toList <:+: x →
    replaceGo epsilon "@0@".toList 0 (x.flatMap encS) = x.flatMap encS
  | [], _, _ => by rw [List.flatMap_nil, replaceGo]
  | c :: x, h1, h2 => by
    have ih := write_eps x (fun h => h1 (by simp [h])) (not_infix_tail h2)
    rw [List.flatMap_cons]
    by_cases hc : c = ' '
    · subst hc
      rw [show encS ' ' = '@' :: "_SPACE_".toList ++ ['@'] from by decide, replaceGo_code, ih]
      · decide
      · exact ⟨"_EPSILON_SYMBOL_@".toList, by decide⟩
      · rw [show epsilon = '@' :: '_' :: 'E' :: "PSILON_SYMBOL_@".toList from by decide,
          show "_SPACE_".toList = '_' :: 'S' :: "PACE_".toList from by decide]
        simp only [List.cons_append, List.cons_prefix_cons]
        rintro ⟨_, _, h, _⟩; exact absurd h (by decide)
      · intro h
        have h' : "_EPSILON_SYMBOL_".toList ++ ['@'] <+: x.flatMap encS := by
          have : epsilon = '@' :: ("_EPSILON_SYMBOL_".toList ++ ['@']) := by decide
          rw [this, List.cons_prefix_cons] at h; exact h.2
        obtain ⟨d, x', hx, hd⟩ := prefix_of_encoded encS_shape _ x (by decide) (fun h => h1 (by simp [h])) h'
        have hd' : d = ' ' := by
          unfold encS at hd; by_contra hne; rw [if_neg hne] at hd; exact hd rfl
        subst hd'
        rw [show " _EPSILON_SYMBOL_ ".toList = ' ' :: "_EPSILON_SYMBOL_".toList ++ [' '] from by decide] at h2
        exact h2 (infix_cons_of_prefix hx)
    · have hcc : encS c = [c] := by unfold encS; rw [if_neg hc]
      rw [hcc, List.singleton_append, replaceGo_step, ih]
      intro h
      rw [show epsilon = '@' :: "_EPSILON_SYMBOL_@".toList from by decide, List.cons_prefix_cons] at h
      exact h1 (by rw [h.1]; simp)

private theorem writeSymbol_plain {x : Str} (h1 : '@' ∉ x) (h2 : ¬ " _EPSILON_SYMBOL_ ".toList <:+: x) :
    writeSymbol x = x.flatMap enc := by
  unfold writeSymbol
  rw [show " ".toList = [' '] from by decide, show "\t".toList = ['\t'] from by decide, replaceAll_char, replaceAll_char]
  have := write_eps x h1 h2
  rw [show replaceAll (x.flatMap fun d => if d = ' ' then "@_SPACE_@".toList else [d]) epsilon "@0@".toList
    = x.flatMap encS from this, List.flatMap_assoc]
  congr 1; funext c
  unfold enc encS encT
  by_cases hc : c = ' '
  · subst hc; decide
  · rw [if_neg hc, if_neg hc, List.flatMap_singleton]

/-- The first replacement done when reading gives the spaces back. -/
private theorem read_space : ∀ x : Str, '@' ∉ x → ¬ "\t_SPACE_ ".toList <:+: x → ¬ "\t_SPACE_\t".toList <:+: x →
    replaceGo "@_SPACE_@".toList " ".toList 0 (x.flatMap enc) = x.flatMap encT
  | [], _, _, _ => by rw [List.flatMap_nil, List.flatMap_nil, replaceGo]
  | c :: x, h1, h2, h3 => by
    have ih := read_space x (fun h => h1 (by simp [h])) (not_infix_tail h2) (not_infix_tail h3)
    rw [List.flatMap_cons, List.flatMap_cons]
    by_cases hc : c = ' '
    · subst hc
      rw [show enc ' ' = "@_SPACE_@".toList from by decide, replaceGo_match (by decide), ih]; rfl
    · by_cases ht : c = '\t'
      · subst ht
        rw [show enc '\t' = '@' :: "_TAB_".toList ++ ['@'] from by decide, replaceGo_code, ih]
        · rfl
        · decide
        · exact ⟨"_SPACE_@".toList, by decide⟩
        · rw [show "@_SPACE_@".toList = '@' :: '_' :: 'S' :: "PACE_@".toList from by decide,
            show "_TAB_".toList = '_' :: 'T' :: "AB_".toList from by decide]
          simp only [List.cons_append, List.cons_prefix_cons]
          rintro ⟨_, _, h, _⟩; exact absurd h (by decide)
        · intro h
          have h' : "_SPACE_".toList ++ ['@'] <+: x.flatMap enc := by
            rw [show "@_SPACE_@".toList = '@' :: ("_SPACE_".toList ++ ['@']) from by decide, List.cons_prefix_cons] at h
            exact h.2
          obtain ⟨d, x', hx, hd⟩ := prefix_of_encoded enc_shape _ x (by decide) (fun h => h1 (by simp [h])) h'
          have hd' : d = ' ' ∨ d = '\t' := by
            by_contra hne
            rw [not_or] at hne
            unfold enc encT at hd; rw [if_neg hne.1, if_neg hne.2] at hd; exact hd rfl
          have hi := infix_cons_of_prefix (c := '\t') hx
          rcases hd' with rfl | rfl
          · exact h2 hi
          · exact h3 hi
      · have e1 : enc c = [c] := by unfold enc encT; rw [if_neg hc, if_neg ht]
        have e2 : encT c = [c] := by unfold encT; rw [if_neg ht]
        rw [e1, e2, List.singleton_append, List.singleton_append, replaceGo_step, ih]
        intro h
        rw [show "@_SPACE_@".toList = '@' :: "_SPACE_@".toList from by decide, List.cons_prefix_cons] at h
        exact h1 (by rw [h.1]; simp)

/-- The second replacement done when reading changes nothing. -/
private theorem read_zero : ∀ x : Str, '@' ∉ x → ¬ "\t0\t".toList <:+: x →
    replaceGo "@0@".toList epsilon 0 (x.flatMap encT) = x.flatMap encT
  | [], _, _ => by rw [List.flatMap_nil, replaceGo]
  | c :: x, h1, h2 => by
    have ih := read_zero x (fun h => h1 (by simp [h])) (not_infix_tail h2)
    rw [List.flatMap_cons]
    by_cases ht : c = '\t'
    · subst ht
      rw [show encT '\t' = '@' :: "_TAB_".toList ++ ['@'] from by decide, replaceGo_code, ih]
      · decide
      · exact ⟨"0@".toList, by decide⟩
      · rw [show "@0@".toList = '@' :: '0' :: "@".toList from by decide,
          show "_TAB_".toList = '_' :: "TAB_".toList from by decide]
        simp only [List.cons_append, List.cons_prefix_cons]
        rintro ⟨_, h, _⟩; exact absurd h (by decide)
      · intro h
        have h' : "0".toList ++ ['@'] <+: x.flatMap encT := by
          rw [show "@0@".toList = '@' :: ("0".toList ++ ['@']) from by decide, List.cons_prefix_cons] at h
          exact h.2
        obtain ⟨d, x', hx, hd⟩ := prefix_of_encoded encT_shape _ x (by decide) (fun h => h1 (by simp [h])) h'
        have hd' : d = '\t' := by
          unfold encT at hd; by_contra hne; rw [if_neg hne] at hd; exact hd rfl
        subst hd'
        exact h2 (infix_cons_of_prefix hx)
    · have e2 : encT c = [c] := by unfold encT; rw [if_neg ht]
      rw [e2, List.singleton_append, replaceGo_step, ih]
      intro h
      rw [show "@0@".toList = '@' :: "0@".toList from by decide, List.cons_prefix_cons] at h
      exact h1 (by rw [h.1]; simp)

/-- The third replacement done when reading gives the tabs back. -/
private theorem read_tab : ∀ x : Str, '@' ∉ x →
    replaceGo "@_TAB_@".toList "\t".toList 0 (x.flatMap encT) = x
  | [], _ => by rw [List.flatMap_nil, replaceGo]
  | c :: x, h1 => by
    have ih := read_tab x (fun h => h1 (by simp [h]))
    rw [List.flatMap_cons]
    by_cases ht : c = '\t'
    · subst ht
      rw [show encT '\t' = "@_TAB_@".toList from by decide, replaceGo_match (by decide), ih]; rfl
    · have e2 : encT c = [c] := by unfold encT; rw [if_neg ht]
      rw [e2, List.singleton_append, replaceGo_step, ih]
      intro h
      rw [show "@_TAB_@".toList = '@' :: "_TAB_@".toList from by decide, List.cons_prefix_cons] at h
      exact h1 (by rw [h.1]; simp)

end

private theorem not_infix_of_at {n x : Str} (h : '@' ∉ x) (hn : '@' ∈ n) : ¬ n <:+: x :=
  fun h' => h (h'.subset hn)

private theorem not_infix_char {c : Char} {x : Str} (h : c ∉ x) : ¬ [c] <:+: x := fun h' => h (h'.subset (by simp))

/-- **C11** (part).  A preserved symbol that is written to AT&T text and read back is the same symbol, unless the
reader was told that this symbol means epsilon.  Missing from the full claim: symbols that contain no code but are not
`Preserved`; `C11_violated` shows that the claim is false for some of them. -/
theorem C11_partial (eps x : Sym) (h : Preserved x) (heps : eps = x → x = epsilon) :
    readSymbol eps (writeSymbol x) = x := by
  rcases h with rfl | ⟨hs, ht, hc, he⟩ | ⟨h1, h2, h3, h4, h5⟩
  · rw [show writeSymbol epsilon = "@0@".toList from by decide]
    unfold readSymbol
    rw [show replaceAll (replaceAll (replaceAll (replaceAll "@0@".toList "@_SPACE_@".toList " ".toList) "@0@".toList epsilon)
    "@_TAB_@".toList "\t".toList) "@_COLON_@".toList ":".toList = epsilon from by decide]
    simp
  · have hw : writeSymbol x = x := by
      unfold writeSymbol
      rw [show replaceAll x " ".toList "@_SPACE_@".toList = x from replaceAll_none (not_infix_char hs),
        replaceAll_none he]
      exact replaceAll_none (not_infix_char ht)
    rw [hw]
    unfold readSymbol
    simp only [replaceAll_none (hc _ (show "@_SPACE_@".toList ∈ codes by simp [codes])),
      replaceAll_none (hc _ (show "@0@".toList ∈ codes by simp [codes])),
      replaceAll_none (hc _ (show "@_TAB_@".toList ∈ codes by simp [codes])),
      replaceAll_none (hc _ (show "@_COLON_@".toList ∈ codes by simp [codes]))]
    split
    · rename_i h; exact (heps h).symm
    · rfl
  · rw [writeSymbol_plain h1 h2]
    unfold readSymbol
    rw [show replaceAll (x.flatMap enc) "@_SPACE_@".toList " ".toList = x.flatMap encT from read_space x h1 h3 h4,
      show replaceAll (x.flatMap encT) "@0@".toList epsilon = x.flatMap encT from read_zero x h1 h5,
      show replaceAll (x.flatMap encT) "@_TAB_@".toList "\t".toList = x from read_tab x h1,
      replaceAll_none (not_infix_of_at h1 (by decide))]
    simp only []
    split
    · rename_i h; exact (heps h).symm
    · rfl

example : Preserved "a b\tc".toList := Or.inr (Or.inr (by decide +kernel))
example : Preserved "@P.CASE.NOM@".toList := Or.inr (Or.inl (by simp only [NoCode]; decide +kernel))
example : readSymbol "<eps>".toList (writeSymbol "a b\tc".toList) = "a b\tc".toList := by decide +kernel

/-- **C11** (negation).  Some symbols in which no code occurs do not survive: a tab, a zero and a tab; a symbol that
ends an unfinished code before a space. -/
theorem C11_violated : ∃ x y : Sym, NoCode x ∧ NoCode y ∧ '@' ∉ x ∧
    (∀ eps, readSymbol eps (writeSymbol x) ≠ x) ∧ (∀ eps, readSymbol eps (writeSymbol y) ≠ y) := by
  have key : ∀ (eps x z : Sym), x ≠ z → x ≠ epsilon →
      replaceAll (replaceAll (replaceAll (replaceAll (writeSymbol x) "@_SPACE_@".toList " ".toList) "@0@".toList epsilon)
        "@_TAB_@".toList "\t".toList) "@_COLON_@".toList ":".toList = z → readSymbol eps (writeSymbol x) ≠ x := by
    intro eps x z h1 h2 h3 h
    unfold readSymbol at h
    simp only [h3] at h
    split at h
    · exact h2 h.symm
    · exact h1 h.symm
  refine ⟨"\t0\t".toList, "@_SPACE_ ".toList, by simp only [NoCode]; decide +kernel, by simp only [NoCode]; decide +kernel, by decide +kernel,
    fun eps => key eps _ "\t_EPSILON_SYMBOL_\t".toList (by decide +kernel) (by decide +kernel) (by decide +kernel),
    fun eps => key eps _ " _SPACE_@".toList (by decide +kernel) (by decide +kernel) (by decide +kernel)⟩

/-! ## Whole transducers -/

/-- No character of a symbol ends a line or a field, except space and tab, which are encoded. -/
def NoBreak (x : Sym) : Prop := ∀ c ∈ x, isSpace c = true → c = ' ' ∨ c = '\t'

/-- A symbol that can be written and read back. -/
structure Writable (eps x : Sym) : Prop where
  nonempty : x ≠ []
  noBreak : NoBreak x
  preserved : Preserved x
  notEps : eps = x → x = epsilon
  fits : (writeSymbol x).length < 100

/-- A weight whose text is one field and reads back as the weight. -/
structure WeightOK (showW : Int → Str) (readW : Str → Int) (w : Int) : Prop where
  nonempty : showW w ≠ []
  noSpace : ∀ c ∈ showW w, isSpace c = false
  back : readW (showW w) = w
  fits : (showW w).length < 100

private theorem writeSymbol_field {eps x : Sym} (h : Writable eps x) :
    writeSymbol x ≠ [] ∧ ∀ c ∈ writeSymbol x, isSpace c = false := by
  obtain ⟨h0, h1, h2, _⟩ := h
  rcases h2 with rfl | ⟨hs, ht, hc, he⟩ | ⟨h2, h3, _⟩
  · rw [show writeSymbol epsilon = "@0@".toList from by decide +kernel]; decide
  · have hw : writeSymbol x = x := by
      unfold writeSymbol
      rw [show replaceAll x " ".toList "@_SPACE_@".toList = x from replaceAll_none (not_infix_char hs),
        replaceAll_none he]
      exact replaceAll_none (not_infix_char ht)
    rw [hw]
    refine ⟨h0, fun c hc' => ?_⟩
    rw [← Bool.not_eq_true]
    intro h
    rcases h1 c hc' h with rfl | rfl
    · exact hs hc'
    · exact ht hc'
  · rw [writeSymbol_plain h2 h3]
    constructor
    · cases x with
      | nil => exact absurd rfl h0
      | cons c x =>
        rw [List.flatMap_cons]
        rcases enc_shape c with h | ⟨t, h⟩ <;> rw [h] <;> simp
    · intro c hc
      rw [List.mem_flatMap] at hc
      obtain ⟨d, hd, hcd⟩ := hc
      unfold enc encT at hcd
      split at hcd
      · exact (by decide +kernel : ∀ c ∈ "@_SPACE_@".toList, isSpace c = false) c hcd
      · split at hcd
        · exact (by decide +kernel : ∀ c ∈ "@_TAB_@".toList, isSpace c = false) c hcd
        · rename_i n1 n2
          rw [List.mem_singleton] at hcd; subst hcd
          rw [← Bool.not_eq_true]
          intro h
          rcases h1 c hd h with h | h
          · exact n1 h
          · exact n2 h

/-- A transition or a final state, in the order in which they are written. -/
private abbrev Entry := (Nat × Arc) ⊕ (Nat × Int)

private def Entry.line (showW : Int → Str) (ww : Bool) : Entry → Str
  | .inl (s, a) => arcLine showW ww s a
  | .inr (s, w) => finalLine showW ww s w

/-- What reading the line of an entry does; without weights every weight is 0. -/
private def Entry.add (ww : Bool) (g : Graph) : Entry → Graph
  | .inl (s, a) => g.addTransition s { a with weight := if ww then a.weight else 0 }
  | .inr (s, w) => g.setFinal s (if ww then w else 0)

private def entries (g : Graph) : List Entry :=
  g.states.zipIdx.flatMap fun e => (e.1.map fun a => Sum.inl (e.2, a)) ++
    match g.final e.2 with
    | some w => [Sum.inr (e.2, w)]
    | none => []

private theorem lines_eq (showW : Int → Str) (ww : Bool) (g : Graph) :
    lines showW ww g = (entries g).map (Entry.line showW ww) := by
  unfold lines entries
  rw [List.map_flatMap]
  congr 1; funext e
  unfold stateLines
  rw [List.map_append, List.map_map]
  congr 1
  cases g.final e.2 <;> rfl

private structure Entry.OK (showW : Int → Str) (readW : Str → Int) (eps : Sym) (ww : Bool) (e : Entry) : Prop where
  arc : ∀ s a, e = .inl (s, a) → s < 2 ^ 31 ∧ a.target < 2 ^ 31 ∧ Writable eps a.inp ∧ Writable eps a.out ∧
    (ww = true → WeightOK showW readW a.weight)
  final : ∀ s w, e = .inr (s, w) → s < 2 ^ 31 ∧ (ww = true → WeightOK showW readW w)
  fits : (Entry.line showW ww e).length ≤ 254

private theorem natText_field (n : Nat) : ∀ c ∈ natText n, isSpace c = false :=
  fun c hc => not_space_of_digit (natText_digits n c hc)

private theorem natTextGo_length : ∀ (f n k : Nat), n < 10 ^ (k + 1) → (natTextGo f n).length ≤ k + 1
  | 0, _, _, _ => by simp [natTextGo]
  | f + 1, n, k, h => by
    rw [natTextGo]
    split
    · simp
    · rename_i hn
      cases k with
      | zero => omega
      | succ k =>
        have := natTextGo_length f (n / 10) k (by
          rw [Nat.div_lt_iff_lt_mul (by omega)]; rw [Nat.pow_succ] at h; exact h)
        simp; omega

private theorem natText_length {n : Nat} (h : n < 2 ^ 31) : (natText n).length < 100 := by
  have := natTextGo_length (n + 1) n 9 (by omega)
  unfold natText; omega

private theorem addLine_entry {showW : Int → Str} {readW : Str → Int} {eps : Sym} {ww : Bool} {e : Entry}
    (h : Entry.OK showW readW eps ww e) (g : Graph) :
    addLine readW eps g (Entry.line showW ww e) = .ok (some (Entry.add ww g e)) := by
  have hsp : isSpace '\t' = true := by decide +kernel
  have hnl : isSpace '\n' = true := by decide +kernel
  rcases e with ⟨s, a⟩ | ⟨s, w⟩
  · obtain ⟨hs, ht, hi, ho, hw⟩ := h.arc s a rfl
    have fi := writeSymbol_field hi
    have fo := writeSymbol_field ho
    have ri := C11_partial eps a.inp hi.preserved hi.notEps
    have ro := C11_partial eps a.out ho.preserved ho.notEps
    show addLine readW eps g (arcLine showW ww s a) = _
    unfold arcLine
    cases ww with
    | false =>
      have hf : scanFields 5 (natText s ++ '\t' :: natText a.target ++ '\t' :: writeSymbol a.inp ++
          '\t' :: writeSymbol a.out ++ (if false = true then '\t' :: showW a.weight else []) ++ ['\n'])
          = [natText s, natText a.target, writeSymbol a.inp, writeSymbol a.out] := by
        simp only [Bool.false_eq_true, if_false, List.append_nil, List.append_assoc, List.cons_append]
        rw [scanFields_field _ (natText_ne_nil s) (natText_field s) hsp,
          scanFields_field _ (natText_ne_nil _) (natText_field _) hsp,
          scanFields_field _ fi.1 fi.2 hsp, scanFields_field _ fo.1 fo.2 hnl, scanFields_nil]
      unfold addLine
      rw [hf]
      have hlen : ([natText s, natText a.target, writeSymbol a.inp, writeSymbol a.out].any
          (fun f => 100 ≤ f.length)) = false := by
        have := natText_length hs; have := natText_length ht; have := hi.fits; have := ho.fits
        simp; omega
      simp only [hlen, atoi_natText hs, atoi_natText ht, ri, ro, Bool.false_eq_true, if_false]
      rfl
    | true =>
      have fw := hw rfl
      have hf : scanFields 5 (natText s ++ '\t' :: natText a.target ++ '\t' :: writeSymbol a.inp ++
          '\t' :: writeSymbol a.out ++ (if true = true then '\t' :: showW a.weight else []) ++ ['\n'])
          = [natText s, natText a.target, writeSymbol a.inp, writeSymbol a.out, showW a.weight] := by
        simp only [if_true, List.append_assoc, List.cons_append]
        rw [scanFields_field _ (natText_ne_nil s) (natText_field s) hsp,
          scanFields_field _ (natText_ne_nil _) (natText_field _) hsp,
          scanFields_field _ fi.1 fi.2 hsp, scanFields_field _ fo.1 fo.2 hsp,
          scanFields_field _ fw.nonempty fw.noSpace hnl, scanFields_nil]
      unfold addLine
      rw [hf]
      have hlen : ([natText s, natText a.target, writeSymbol a.inp, writeSymbol a.out, showW a.weight].any
          (fun f => 100 ≤ f.length)) = false := by
        have := natText_length hs; have := natText_length ht; have := hi.fits; have := ho.fits; have := fw.fits
        simp; omega
      simp only [hlen, atoi_natText hs, atoi_natText ht, ri, ro, fw.back, Bool.false_eq_true, if_false]
      rfl
  · obtain ⟨hs, hw⟩ := h.final s w rfl
    show addLine readW eps g (finalLine showW ww s w) = _
    unfold finalLine
    cases ww with
    | false =>
      have hf : scanFields 5 (natText s ++ (if false = true then '\t' :: showW w else []) ++ ['\n']) = [natText s] := by
        simp only [Bool.false_eq_true, if_false, List.append_nil]
        rw [scanFields_field _ (natText_ne_nil s) (natText_field s) hnl, scanFields_nil]
      unfold addLine
      rw [hf]
      have hlen : ([natText s].any (fun f => 100 ≤ f.length)) = false := by
        have := natText_length hs
        simp; omega
      simp only [hlen, atoi_natText hs, Bool.false_eq_true, if_false]
      rfl
    | true =>
      have fw := hw rfl
      have hf : scanFields 5 (natText s ++ (if true = true then '\t' :: showW w else []) ++ ['\n']) =
          [natText s, showW w] := by
        simp only [if_true, List.append_assoc, List.cons_append]
        rw [scanFields_field _ (natText_ne_nil s) (natText_field s) hsp,
          scanFields_field _ fw.nonempty fw.noSpace hnl, scanFields_nil]
      unfold addLine
      rw [hf]
      have hlen : ([natText s, showW w].any (fun f => 100 ≤ f.length)) = false := by
        have := natText_length hs; have := fw.fits
        simp; omega
      simp only [hlen, atoi_natText hs, fw.back, Bool.false_eq_true, if_false]
      rfl

/-- A written line starts with a digit and has its newline at the end only. -/
private theorem entry_line_shape {showW : Int → Str} {readW : Str → Int} {eps : Sym} {ww : Bool} {e : Entry}
    (h : Entry.OK showW readW eps ww e) :
    ∃ l c, Entry.line showW ww e = l ++ ['\n'] ∧ '\n' ∉ l ∧ l.head? = some c ∧ isDigit c = true := by
  have hnl : ∀ {f : Str}, (∀ c ∈ f, isSpace c = false) → '\n' ∉ f := fun h h' => absurd (h _ h') (by decide +kernel)
  have hh : ∀ n r, ∃ c, (natText n ++ r).head? = some c ∧ isDigit c = true := by
    intro n r
    have hd := natText_digits n
    cases ht : natText n with
    | nil => exact absurd ht (natText_ne_nil n)
    | cons c t => exact ⟨c, rfl, hd c (by rw [ht]; simp)⟩
  rcases e with ⟨s, a⟩ | ⟨s, w⟩
  · obtain ⟨hs, ht, hi, ho, hw⟩ := h.arc s a rfl
    obtain ⟨c, hc1, hc2⟩ := hh s ('\t' :: natText a.target ++ '\t' :: writeSymbol a.inp ++ '\t' :: writeSymbol a.out ++
      (if ww then '\t' :: showW a.weight else []))
    refine ⟨_, c, by unfold Entry.line arcLine; rfl, ?_, by simpa using hc1, hc2⟩
    have h1 := hnl (natText_field s)
    have h2 := hnl (natText_field a.target)
    have h3 := hnl (writeSymbol_field hi).2
    have h4 := hnl (writeSymbol_field ho).2
    have h5 : '\n' ∉ (if ww then '\t' :: showW a.weight else []) := by
      cases ww with
      | false => simp
      | true => simp [hnl (hw rfl).noSpace]
    simp only [List.mem_append, List.mem_cons, not_or]
    exact ⟨⟨⟨⟨h1, by decide +kernel, h2⟩, by decide +kernel, h3⟩, by decide +kernel, h4⟩, h5⟩
  · obtain ⟨hs, hw⟩ := h.final s w rfl
    obtain ⟨c, hc1, hc2⟩ := hh s (if ww then '\t' :: showW w else [])
    refine ⟨_, c, by unfold Entry.line finalLine; rfl, ?_, hc1, hc2⟩
    have h5 : '\n' ∉ (if ww then '\t' :: showW w else []) := by
      cases ww with
      | false => simp
      | true => simp [hnl (hw rfl).noSpace]
    simp only [List.mem_append, not_or]
    exact ⟨hnl (natText_field s), h5⟩

private theorem readLoop_entries {showW : Int → Str} {readW : Str → Int} {eps : Sym} {ww : Bool} :
    ∀ (es : List Entry) (n : Nat) (g : Graph) (tail : Str), (∀ e ∈ es, Entry.OK showW readW eps ww e) →
    readLoop readW eps (es.length + n) g ⟨(es.map (Entry.line showW ww)).flatten ++ tail, false⟩ =
      readLoop readW eps n (es.foldl (Entry.add ww) g) ⟨tail, false⟩
  | [], n, g, tail, _ => by simp
  | e :: es, n, g, tail, h => by
    have he := h e (by simp)
    obtain ⟨l, c, hl, hnl, hd, hdig⟩ := entry_line_shape he
    have hlen := he.fits
    rw [hl] at hlen
    rw [List.map_cons, List.flatten_cons, List.length_cons, List.foldl_cons, hl,
      show es.length + 1 + n = es.length + n + 1 by omega, readLoop]
    rw [show (l ++ ['\n']) ++ (es.map (Entry.line showW ww)).flatten ++ tail =
      l ++ '\n' :: ((es.map (Entry.line showW ww)).flatten ++ tail) by simp,
      fgets_line hnl (by simp at hlen; omega)]
    have hl0 : ∃ t, l = c :: t := by
      cases l with
      | nil => simp at hd
      | cons d t => simp at hd; exact ⟨t, by rw [hd]⟩
    obtain ⟨t, rfl⟩ := hl0
    have hempty : isEmptyLine (c :: t ++ ['\n']) = false := by
      rw [← Bool.not_eq_true]
      intro h
      simp only [isEmptyLine, Bool.or_eq_true, decide_eq_true_eq] at h
      rcases h with (h | h) | h
      · simp at h
      · simp at h
      · rw [show "\r\n".toList = ['\r', '\n'] from by decide +kernel, List.cons_append] at h
        injection h with h _
        subst h; exact absurd hdig (by decide +kernel)
    have hdash : ¬ (c :: t ++ ['\n']).head? = some '-' := by
      intro h
      simp at h; subst h; exact absurd hdig (by decide +kernel)
    simp only [hempty, Bool.false_eq_true, if_false, if_neg hdash]
    rw [← hl, addLine_entry he]
    exact readLoop_entries es n _ tail fun e' h' => h e' (by simp [h'])

private theorem zipIdx_pick {α : Type} (f : List Arc → List α) (hf : f [] = []) (t : Nat) : ∀ (l : List (List Arc)) (k : Nat),
    ((l.zipIdx k).flatMap fun e => if e.2 = t then f e.1 else []) = if k ≤ t then f ((l[t - k]?).getD []) else []
  | [], k => by simp [hf]
  | x :: l, k => by
    rw [List.zipIdx_cons, List.flatMap_cons, zipIdx_pick f hf t l (k + 1)]
    by_cases h : k = t
    · subst h; simp; omega
    · rw [if_neg h, List.nil_append]
      by_cases h' : k + 1 ≤ t
      · rw [if_pos h', if_pos (by omega), show t - k = (t - (k + 1)) + 1 by omega, List.getElem?_cons_succ]
      · rw [if_neg h', if_neg (by omega)]

private def pickArc (ww : Bool) (t : Nat) : Entry → Option Arc
  | .inl (s, a) => if s = t then some { a with weight := if ww then a.weight else 0 } else none
  | .inr _ => none

private theorem foldl_arcs (ww : Bool) (t : Nat) : ∀ (es : List Entry) (g : Graph),
    (es.foldl (Entry.add ww) g).arcs t = g.arcs t ++ es.filterMap (pickArc ww t)
  | [], g => by simp
  | .inl (s, a) :: es, g => by
    rw [List.foldl_cons, foldl_arcs ww t es]
    show (g.addTransition s { a with weight := if ww then a.weight else 0 }).arcs t ++ _ = _
    rw [Graph.arcs_addTransition]
    by_cases h : s = t
    · subst h; simp [pickArc]
    · rw [if_neg fun e => h e.symm]; simp [pickArc, h]
  | .inr (s, w) :: es, g => by
    rw [List.foldl_cons, foldl_arcs ww t es]
    show (g.setFinal s _).arcs t ++ _ = _
    rw [Graph.arcs_setFinal]; rfl

private theorem entries_arcs (ww : Bool) (g : Graph) (t : Nat) : (entries g).filterMap (pickArc ww t) =
    (g.arcs t).map fun a => { a with weight := if ww then a.weight else 0 } := by
  unfold entries
  rw [List.filterMap_flatMap]
  have := zipIdx_pick (fun l => l.map fun a : Arc => { a with weight := if ww then a.weight else 0 }) rfl t g.states 0
  simp only [Nat.zero_le, if_true, Nat.sub_zero] at this
  rw [show g.arcs t = (g.states[t]?).getD [] from rfl, ← this]
  congr 1; funext e
  rw [List.filterMap_append, List.filterMap_map]
  have h2 : (match g.final e.2 with
    | some w => [Sum.inr (e.2, w)]
    | none => ([] : List Entry)).filterMap (pickArc ww t) = [] := by
    cases g.final e.2 <;> simp [pickArc]
  rw [h2, List.append_nil]
  by_cases h : e.2 = t
  · rw [if_pos h]
    rw [show (pickArc ww t ∘ fun a => (Sum.inl (e.2, a) : Entry)) =
      fun a => some { a with weight := if ww then a.weight else 0 } by funext a; simp [pickArc, h]]
    rw [List.filterMap_eq_map']
  · rw [if_neg h]
    rw [show (pickArc ww t ∘ fun a => (Sum.inl (e.2, a) : Entry)) = fun _ => none by funext a; simp [pickArc, h]]
    simp

open Classical in
private theorem foldl_final (ww : Bool) (t : Nat) (F : Option Int) : ∀ (es : List Entry) (g : Graph),
    (∀ w, (Sum.inr (t, w) : Entry) ∈ es → F = some w) →
    (es.foldl (Entry.add ww) g).final t =
      if ∃ w, (Sum.inr (t, w) : Entry) ∈ es then F.map (fun w => if ww then w else 0) else g.final t
  | [], g, _ => by simp
  | .inl (s, a) :: es, g, h => by
    rw [List.foldl_cons, foldl_final ww t F es _ fun w hw => h w (by simp [hw])]
    show (if _ then _ else (g.addTransition s _).final t) = _
    rw [Graph.final_addTransition]
    simp
  | .inr (s, w) :: es, g, h => by
    rw [List.foldl_cons, foldl_final ww t F es _ fun w hw => h w (by simp [hw])]
    show (if _ then _ else (g.setFinal s _).final t) = _
    rw [Graph.final_setFinal]
    by_cases hs : s = t
    · subst hs
      have hF := h w (by simp)
      rw [if_pos (c := ∃ w', _ ∈ Sum.inr (s, w) :: es) ⟨w, by simp⟩, if_pos rfl, hF]
      simp
    · rw [if_neg (c := t = s) fun e => hs e.symm]
      congr 1
      simp only [List.mem_cons, Sum.inr.injEq, Prod.mk.injEq]
      have : ∀ w', ¬ (t = s ∧ w' = w) := fun w' h => hs h.1.symm
      simp [this]

private theorem mem_entries {g : Graph} {e : Entry} : e ∈ entries g ↔
    (∃ s, ∃ a ∈ g.arcs s, e = .inl (s, a)) ∨ (∃ s w, s < g.states.length ∧ g.final s = some w ∧ e = .inr (s, w)) := by
  unfold entries
  simp only [List.mem_flatMap, Prod.exists, List.mem_zipIdx_iff_getElem?, List.mem_append, List.mem_map]
  constructor
  · rintro ⟨l, s, hl, ⟨a, ha, rfl⟩ | he⟩
    · exact Or.inl ⟨s, a, by simpa [Graph.arcs, hl] using ha, rfl⟩
    · cases hf : g.final s with
      | none => rw [hf] at he; simp at he
      | some w =>
        rw [hf] at he; simp at he
        exact Or.inr ⟨s, w, (List.getElem?_eq_some_iff.mp hl).1, hf, he⟩
  · rintro (⟨s, a, ha, rfl⟩ | ⟨s, w, hs, hf, rfl⟩)
    · have hs := Graph.lt_of_mem_arcs ha
      refine ⟨g.states[s], s, List.getElem?_eq_getElem hs, Or.inl ⟨a, ?_, rfl⟩⟩
      simpa [Graph.arcs, List.getElem?_eq_getElem hs] using ha
    · exact ⟨g.states[s], s, List.getElem?_eq_getElem hs, Or.inr (by rw [hf]; simp)⟩

private theorem foldl_length (ww : Bool) (N : Nat) : ∀ (es : List Entry) (g : Graph), g.states.length ≤ N →
    (∀ s a, (Sum.inl (s, a) : Entry) ∈ es → s < N ∧ a.target < N) → (∀ s w, (Sum.inr (s, w) : Entry) ∈ es → s < N) →
    (es.foldl (Entry.add ww) g).states.length ≤ N
  | [], g, h, _, _ => h
  | .inl (s, a) :: es, g, h, h1, h2 => by
    rw [List.foldl_cons]
    apply foldl_length ww N es _ _ (fun s a h => h1 s a (by simp [h])) (fun s w h => h2 s w (by simp [h]))
    show (g.addTransition s _).states.length ≤ N
    rw [Graph.length_addTransition]
    have := h1 s a (by simp)
    simp only; omega
  | .inr (s, w) :: es, g, h, h1, h2 => by
    rw [List.foldl_cons]
    apply foldl_length ww N es _ _ (fun s a h => h1 s a (by simp [h])) (fun s w h => h2 s w (by simp [h]))
    show (g.setFinal s _).states.length ≤ N
    rw [Graph.length_setFinal]
    have := h2 s w (by simp)
    omega

private theorem foldl_length_ge (ww : Bool) : ∀ (es : List Entry) (g : Graph),
    g.states.length ≤ (es.foldl (Entry.add ww) g).states.length ∧
    (∀ s a, (Sum.inl (s, a) : Entry) ∈ es → s < (es.foldl (Entry.add ww) g).states.length ∧
      a.target < (es.foldl (Entry.add ww) g).states.length) ∧
    (∀ s w, (Sum.inr (s, w) : Entry) ∈ es → s < (es.foldl (Entry.add ww) g).states.length)
  | [], g => by simp
  | e :: es, g => by
    rw [List.foldl_cons]
    obtain ⟨h0, h1, h2⟩ := foldl_length_ge ww es (Entry.add ww g e)
    have hge : g.states.length ≤ (Entry.add ww g e).states.length ∧
        (∀ s a, e = .inl (s, a) → s < (Entry.add ww g e).states.length ∧
          a.target < (Entry.add ww g e).states.length) ∧
        (∀ s w, e = .inr (s, w) → s < (Entry.add ww g e).states.length) := by
      rcases e with ⟨s, a⟩ | ⟨s, w⟩
      · simp only [Entry.add, Graph.length_addTransition]
        refine ⟨by omega, ?_, by simp⟩
        rintro s' a' h; cases h; constructor <;> omega
      · simp only [Entry.add, Graph.length_setFinal]
        refine ⟨by omega, by simp, ?_⟩
        rintro s' a' h; cases h; omega
    refine ⟨by omega, fun s a h => ?_, fun s w h => ?_⟩
    · rcases List.mem_cons.mp h with h | h
      · have := hge.2.1 s a h.symm; omega
      · exact h1 s a h
    · rcases List.mem_cons.mp h with h | h
      · have := hge.2.2 s w h.symm; omega
      · exact h2 s w h

private theorem foldl_alphabet (ww : Bool) (x : Sym) : ∀ (es : List Entry) (g : Graph),
    x ∈ (es.foldl (Entry.add ww) g).alphabet ↔
      x ∈ g.alphabet ∨ ∃ s a, (Sum.inl (s, a) : Entry) ∈ es ∧ (x = a.inp ∨ x = a.out)
  | [], g => by simp
  | .inl (s, a) :: es, g => by
    rw [List.foldl_cons, foldl_alphabet ww x es]
    show x ∈ (g.addTransition s _).alphabet ∨ _ ↔ _
    rw [Graph.mem_alphabet_addTransition]
    simp only [List.mem_cons, Sum.inl.injEq, Prod.mk.injEq]
    constructor
    · rintro ((h | ⟨_, h⟩) | ⟨s', a', h, h'⟩)
      · exact Or.inl h
      · exact Or.inr ⟨s, a, Or.inl ⟨rfl, rfl⟩, h⟩
      · exact Or.inr ⟨s', a', Or.inr h, h'⟩
    · rintro (h | ⟨s', a', ⟨rfl, rfl⟩ | h, h'⟩)
      · exact Or.inl (Or.inl h)
      · exact Or.inl (Or.inr ⟨trivial, h'⟩)
      · exact Or.inr ⟨s', a', h, h'⟩
  | .inr (s, w) :: es, g => by
    rw [List.foldl_cons, foldl_alphabet ww x es]
    show x ∈ g.alphabet ∨ _ ↔ _
    simp

/-- The state occurs in the transducer: it is the start, has a transition, is the target of one, or is final. -/
def Mentioned (g : Graph) (s : Nat) : Prop :=
  s = 0 ∨ g.arcs s ≠ [] ∨ (∃ t, ∃ a ∈ g.arcs t, a.target = s) ∨ g.final s ≠ none

/-- What a reader must give back: the transitions of every state in order, the final weights (0 if weights were not
written), all mentioned states and no new ones, and the symbols on the transitions as the alphabet. -/
structure SameTransducer (ww : Bool) (g g' : Graph) : Prop where
  arcs : ∀ s, g'.arcs s = (g.arcs s).map fun a => if ww then a else { a with weight := 0 }
  final : ∀ s, g'.final s = (g.final s).map fun w => if ww then w else 0
  mentioned : ∀ s, Mentioned g s → s < g'.states.length
  noNew : g'.states.length ≤ g.states.length
  alphabet : ∀ x, x ∈ g'.alphabet ↔ x = epsilon ∨ x = unknown ∨ x = identity ∨
    ∃ s, ∃ a ∈ g.arcs s, x = a.inp ∨ x = a.out

/-- What the writer and the reader rely on: fewer than 2^31 states, symbols and weights that survive, and lines that
fit into the reader's buffer. -/
structure CanWrite (showW : Int → Str) (readW : Str → Int) (eps : Sym) (ww : Bool) (g : Graph) : Prop where
  few : g.states.length ≤ 2 ^ 31
  symbols : ∀ s, ∀ a ∈ g.arcs s, Writable eps a.inp ∧ Writable eps a.out
  weights : ww = true → ∀ s, (∀ a ∈ g.arcs s, WeightOK showW readW a.weight) ∧
    ∀ w, g.final s = some w → WeightOK showW readW w
  fits : ∀ s, (∀ a ∈ g.arcs s, (arcLine showW ww s a).length ≤ 254) ∧
    ∀ w, g.final s = some w → (finalLine showW ww s w).length ≤ 254

private theorem entries_ok {showW : Int → Str} {readW : Str → Int} {eps : Sym} {ww : Bool} {g : Graph} (hg : WF g)
    (h : CanWrite showW readW eps ww g) : ∀ e ∈ entries g, Entry.OK showW readW eps ww e := by
  intro e he
  have hfew := h.few
  rcases mem_entries.mp he with ⟨s, a, ha, rfl⟩ | ⟨s, w, hs, hf, rfl⟩
  · refine ⟨?_, by simp, (h.fits s).1 a ha⟩
    intro s' a' heq
    injection heq with heq; injection heq with h1 h2; subst h1 h2
    have h1 := Graph.lt_of_mem_arcs ha
    have h2 := hg.targets s a ha
    exact ⟨by omega, by omega, (h.symbols s a ha).1, (h.symbols s a ha).2, fun e => (h.weights e s).1 a ha⟩
  · refine ⟨by simp, ?_, (h.fits s).2 w hf⟩
    intro s' w' heq
    injection heq with heq; injection heq with h1 h2; subst h1 h2
    exact ⟨by omega, fun e => (h.weights e s).2 w hf⟩

private theorem entries_same (ww : Bool) {g : Graph} (hg : WF g) :
    SameTransducer ww g ((entries g).foldl (Entry.add ww) Graph.init) where
  arcs s := by
    rw [foldl_arcs, entries_arcs, show Graph.init.arcs s = [] by cases s <;> simp [Graph.init, Graph.arcs], List.nil_append]
    congr 1; funext a; cases ww <;> rfl
  final s := by
    rw [foldl_final ww s (g.final s)]
    · split
      · rfl
      · rename_i h
        cases hf : g.final s with
        | none => rfl
        | some w => exact absurd ⟨w, mem_entries.mpr (Or.inr ⟨s, w, hg.finals s w hf, hf, rfl⟩)⟩ h
    · intro w hw
      rcases mem_entries.mp hw with ⟨s', a, _, h⟩ | ⟨s', w', _, hf, h⟩
      · simp at h
      · injection h with h; injection h with h1 h2; rw [h1, h2, hf]
  mentioned s hs := by
    obtain ⟨h0, h1, h2⟩ := foldl_length_ge ww (entries g) Graph.init
    rcases hs with rfl | hs | ⟨t, a, ha, rfl⟩ | hs
    · exact Nat.lt_of_lt_of_le (by simp [Graph.init]) h0
    · obtain ⟨a, ha⟩ := List.exists_mem_of_ne_nil _ hs
      exact (h1 s a (mem_entries.mpr (Or.inl ⟨s, a, ha, rfl⟩))).1
    · exact (h1 t a (mem_entries.mpr (Or.inl ⟨t, a, ha, rfl⟩))).2
    · cases hf : g.final s with
      | none => exact absurd hf hs
      | some w => exact h2 s w (mem_entries.mpr (Or.inr ⟨s, w, hg.finals s w hf, hf, rfl⟩))
  noNew := by
    apply foldl_length
    · have := hg.nonempty
      simp only [Graph.init, List.length_singleton]; omega
    · intro s a h
      rcases mem_entries.mp h with ⟨s', a', ha, h⟩ | ⟨s', w, _, _, h⟩
      · injection h with h; injection h with h1 h2; subst h1 h2
        exact ⟨Graph.lt_of_mem_arcs ha, hg.targets _ _ ha⟩
      · simp at h
    · intro s w h
      rcases mem_entries.mp h with ⟨s', a', ha, h⟩ | ⟨s', w, hl, _, h⟩
      · simp at h
      · injection h with h; injection h with h1 h2; subst h1; exact hl
  alphabet x := by
    rw [foldl_alphabet]
    have : (∃ s a, (Sum.inl (s, a) : Entry) ∈ entries g ∧ (x = a.inp ∨ x = a.out)) ↔
        ∃ s, ∃ a ∈ g.arcs s, x = a.inp ∨ x = a.out := by
      constructor
      · rintro ⟨s, a, h, h'⟩
        rcases mem_entries.mp h with ⟨s', a', ha, h⟩ | ⟨s', w, _, _, h⟩
        · injection h with h; injection h with h1 h2; subst h1 h2; exact ⟨_, _, ha, h'⟩
        · simp at h
      · rintro ⟨s, a, ha, h'⟩
        exact ⟨s, a, mem_entries.mpr (Or.inl ⟨s, a, ha, rfl⟩), h'⟩
    rw [this]
    simp [Graph.init, or_assoc]

private theorem flatten_length (ls : List Str) (h : ∀ l ∈ ls, l ≠ []) : ls.length ≤ ls.flatten.length := by
  induction ls with
  | nil => simp
  | cons l ls ih =>
    have := List.length_pos_iff.mpr (h l (by simp))
    have := ih fun l hl => h l (by simp [hl])
    rw [List.flatten_cons, List.length_append, List.length_cons]; omega

/-- Lines of different transducers are told apart: the text of a transducer can be followed by the separator line and
further text, or by the end of the file. -/
private theorem read_write {showW : Int → Str} {readW : Str → Int} {eps : Sym} {ww : Bool} {g : Graph} (hg : WF g)
    (h : CanWrite showW readW eps ww g) (tail : Str) : ∃ n,
    read readW eps ⟨write showW ww g ++ tail, false⟩ =
      readLoop readW eps (n + tail.length + 1) ((entries g).foldl (Entry.add ww) Graph.init) ⟨tail, false⟩ := by
  unfold read write
  rw [lines_eq]
  have hne : ∀ l ∈ (entries g).map (Entry.line showW ww), l ≠ [] := by
    intro l hl
    obtain ⟨e, he, rfl⟩ := List.mem_map.mp hl
    obtain ⟨l, c, h1, _⟩ := entry_line_shape (entries_ok hg h e he)
    rw [h1]; simp
  have hlen := flatten_length _ hne
  rw [List.length_map] at hlen
  refine ⟨((entries g).map (Entry.line showW ww)).flatten.length - (entries g).length, ?_⟩
  simp only [Bool.false_eq_true, if_false]
  rw [show (((entries g).map (Entry.line showW ww)).flatten ++ tail).length + 1 = (entries g).length +
    (((entries g).map (Entry.line showW ww)).flatten.length - (entries g).length + tail.length + 1) by
      rw [List.length_append]; omega]
  exact readLoop_entries _ _ _ _ (entries_ok hg h)

/-- **C12** (part).  A transducer written as AT&T text and read back from the file has the same transitions, final
weights and mentioned states, both at the end of a file and before the separator line `--` that starts the next
transducer.  Missing from the full claim: states that no transition and no final weight mentions (`C12_violated`) and
unused symbols of the alphabet are lost, and reading from a stream instead of a file does not work at all
(`C12_stream_violated`). -/
theorem C12_partial (showW : Int → Str) (readW : Str → Int) (eps : Sym) (ww : Bool) (g : Graph) (hg : WF g)
    (h : CanWrite showW readW eps ww g) : ∃ g', SameTransducer ww g g' ∧
      read readW eps ⟨write showW ww g, false⟩ = .ok (g', ⟨[], true⟩) ∧
      ∀ rest, read readW eps ⟨write showW ww g ++ "--\n".toList ++ rest, false⟩ = .ok (g', ⟨rest, false⟩) := by
  refine ⟨_, entries_same ww hg, ?_, fun rest => ?_⟩
  · obtain ⟨n, hn⟩ := read_write hg h []
    rw [List.append_nil] at hn
    rw [hn, readLoop]
    rfl
  · obtain ⟨n, hn⟩ := read_write hg h ("--\n".toList ++ rest)
    rw [List.append_assoc, hn, readLoop]
    rw [show "--\n".toList ++ rest = ['-', '-'] ++ '\n' :: rest by simp]
    rw [fgets_line (by decide +kernel) (by decide +kernel)]
    rfl

/-- The language is the same: every accepted sequence of pairs with its weight. -/
theorem SameTransducer.accepts {g g' : Graph} (h : SameTransducer true g g') (l : List (Sym × Sym)) (w : Int) :
    Accepts g' l w ↔ Accepts g l w := by
  have ha : ∀ s, g'.arcs s = g.arcs s := fun s => by rw [h.arcs]; simp
  have hf : ∀ s, g'.final s = g.final s := fun s => by rw [h.final]; simp
  have hp : ∀ {g₁ g₂ : Graph}, (∀ s, g₁.arcs s = g₂.arcs s) → ∀ {s l w q}, Path g₁ s l w q → Path g₂ s l w q := by
    intro g₁ g₂ hh s l w q hp
    induction hp with
    | nil s => exact .nil s
    | cons hm _ ih => exact .cons (by rw [← hh]; exact hm) ih
  constructor
  · rintro ⟨q, v, f, h1, h2, h3⟩
    exact ⟨q, v, f, hp ha h1, by rw [← hf]; exact h2, h3⟩
  · rintro ⟨q, v, f, h1, h2, h3⟩
    exact ⟨q, v, f, hp (fun s => (ha s).symm) h1, by rw [hf]; exact h2, h3⟩

/-- **C12** (corollary).  With weights, the transducer read back accepts the same sequences with the same weights. -/
theorem C12_language (showW : Int → Str) (readW : Str → Int) (eps : Sym) (g : Graph) (hg : WF g)
    (h : CanWrite showW readW eps true g) : ∃ g' f, read readW eps ⟨write showW true g, false⟩ = .ok (g', f) ∧
      ∀ l w, Accepts g' l w ↔ Accepts g l w := by
  obtain ⟨g', hs, hr, _⟩ := C12_partial showW readW eps true g hg h
  exact ⟨g', _, hr, hs.accepts⟩

/-- An example: two states, a transition `a:b c` with weight 3, the second state final with weight 1. -/
def exGraph : Graph :=
  { states := [[⟨1, "a".toList, "b c".toList, 3⟩], []], finals := [(1, 1)],
    alphabet := [epsilon, unknown, identity, "a".toList, "b c".toList] }

/-- Weights of the example, printed without a fraction. -/
def exShow (w : Int) : Str := natText w.toNat

/-- Weights of the example, read back. -/
def exRead (s : Str) : Int := ((atoi s).getD 0 : Nat)

example : write exShow true exGraph = "0\t1\ta\tb@_SPACE_@c\t3\n1\t1\n".toList := by decide +kernel

private theorem exArcs (s : Nat) (a : Arc) : a ∈ exGraph.arcs s ↔ s = 0 ∧ a = ⟨1, "a".toList, "b c".toList, 3⟩ := by
  match s with
  | 0 => simp [exGraph, Graph.arcs]
  | 1 => simp [exGraph, Graph.arcs]
  | n + 2 => simp [exGraph, Graph.arcs]

private theorem exFinal (s : Nat) (w : Int) : exGraph.final s = some w ↔ s = 1 ∧ w = 1 := by
  simp only [exGraph, Graph.final, mapGet, List.find?_cons, List.find?_nil]
  by_cases h : 1 = s
  · subst h; simp [eq_comm]
  · have h' : ¬ s = 1 := fun e => h e.symm
    simp [h, h']

example : WF exGraph where
  nonempty := by decide +kernel
  targets := by intro s a ha; rw [exArcs] at ha; obtain ⟨rfl, rfl⟩ := ha; decide
  finals := by intro s w h; rw [exFinal] at h; obtain ⟨rfl, rfl⟩ := h; decide

example : CanWrite exShow exRead "<eps>".toList true exGraph where
  few := by decide +kernel
  symbols := by
    intro s a ha; rw [exArcs] at ha; obtain ⟨rfl, rfl⟩ := ha
    exact ⟨⟨by decide +kernel, by simp only [NoBreak]; decide +kernel, Or.inr (Or.inr (by decide +kernel)), by decide +kernel, by decide +kernel⟩,
      ⟨by decide +kernel, by simp only [NoBreak]; decide +kernel, Or.inr (Or.inr (by decide +kernel)), by decide +kernel, by decide +kernel⟩⟩
  weights := by
    intro _ s
    constructor
    · intro a ha; rw [exArcs] at ha; obtain ⟨rfl, rfl⟩ := ha
      exact ⟨by decide +kernel, by decide +kernel, by decide +kernel, by decide +kernel⟩
    · intro w h; rw [exFinal] at h; obtain ⟨rfl, rfl⟩ := h
      exact ⟨by decide +kernel, by decide +kernel, by decide +kernel, by decide +kernel⟩
  fits := by
    intro s
    constructor
    · intro a ha; rw [exArcs] at ha; obtain ⟨rfl, rfl⟩ := ha; decide
    · intro w h; rw [exFinal] at h; obtain ⟨rfl, rfl⟩ := h; decide

/-- **C12** (negation, states).  A state that nothing mentions is lost: the transducer made by adding one state to a
new one reads back with a single state. -/
theorem C12_violated (showW : Int → Str) (readW : Str → Int) (eps : Sym) (ww : Bool) :
    ∃ g g' f, WF g ∧ CanWrite showW readW eps ww g ∧
      read readW eps ⟨write showW ww g, false⟩ = .ok (g', f) ∧ g'.states.length ≠ g.states.length := by
  have ha : ∀ s, (Graph.init.addState).1.arcs s = [] := fun s => by
    rw [Graph.arcs_addState]; cases s <;> simp [Graph.init, Graph.arcs]
  have hf : ∀ s, (Graph.init.addState).1.final s = none := fun s => rfl
  refine ⟨(Graph.init.addState).1, Graph.init, ⟨[], true⟩, ⟨by decide +kernel, ?_, ?_⟩, ⟨by decide +kernel, ?_, ?_, ?_⟩, rfl, by decide +kernel⟩
  · intro s a h; rw [ha] at h; simp at h
  · intro s w h; rw [hf] at h; simp at h
  · intro s a h; rw [ha] at h; simp at h
  · intro _ s
    exact ⟨fun a h => by rw [ha] at h; simp at h, fun w h => by rw [hf] at h; simp at h⟩
  · intro s
    exact ⟨fun a h => by rw [ha] at h; simp at h, fun w h => by rw [hf] at h; simp at h⟩

/-- **C12** (negation, streams).  Reading from an input stream gives the empty transducer, whatever transducer was
written, as soon as something was written. -/
theorem C12_stream_violated (showW : Int → Str) (readW : Str → Int) (eps : Sym) (ww : Bool) (g : Graph) (hg : WF g)
    (h : CanWrite showW readW eps ww g) (hne : write showW ww g ≠ []) (tail : Str) :
    ∃ f, readStream readW eps ⟨write showW ww g ++ tail, false⟩ = .ok (Graph.init, f) := by
  unfold write at hne ⊢
  rw [lines_eq] at hne ⊢
  have hok := entries_ok hg h
  cases he : entries g with
  | nil => rw [he] at hne; simp at hne
  | cons e es =>
    have hk := hok e (by rw [he]; simp)
    obtain ⟨l, c, hl, hnl, _⟩ := entry_line_shape hk
    have hfit := hk.fits
    rw [hl] at hfit
    refine ⟨⟨(es.map (Entry.line showW ww)).flatten ++ tail, false⟩, ?_⟩
    unfold readStream
    simp only [List.map_cons, List.flatten_cons, hl, Bool.false_eq_true, if_false]
    rw [show (l ++ ['\n']) ++ (es.map (Entry.line showW ww)).flatten ++ tail =
      l ++ '\n' :: ((es.map (Entry.line showW ww)).flatten ++ tail) by simp,
      takeLine_line 255 l _ hnl (by simp at hfit; omega)]
    rfl

/-- The language is lost with it: the example accepts a pair, what is read from the stream accepts nothing. -/
theorem C12_stream_language : ∃ g f, readStream exRead "<eps>".toList ⟨write exShow true exGraph, false⟩ = .ok (g, f) ∧
    Accepts exGraph [("a".toList, "b c".toList)] 4 ∧ ∀ l w, ¬ Accepts g l w := by
  refine ⟨Graph.init, ⟨"1\t1\n".toList, false⟩, by decide +kernel, ⟨1, 3, 1, ?_, by decide +kernel, by decide +kernel⟩, ?_⟩
  · exact Path.single (g := exGraph) (s := 0) (a := ⟨1, "a".toList, "b c".toList, 3⟩) (by decide +kernel)
  · rintro l w ⟨q, v, f, _, hf, _⟩
    exact absurd hf (by simp [Graph.init, Graph.final, mapGet])

/-- **C12** (negation, numbers).  The variant that writes symbol numbers loses the final weight of a state without
transitions: two transducers, of which only one accepts the empty sequence, give the same (empty) text. -/
theorem C12_number_violated (num : Sym → Nat) (showW : Int → Str) (ww : Bool) :
    ∃ g₁ g₂ : Graph, WF g₁ ∧ WF g₂ ∧ writeNumber num showW ww g₁ = writeNumber num showW ww g₂ ∧
      Accepts g₁ [] 0 ∧ ¬ Accepts g₂ [] 0 := by
  refine ⟨Graph.init.setFinal 0 0, Graph.init, ⟨by decide +kernel, ?_, ?_⟩, ⟨by decide +kernel, ?_, ?_⟩, rfl,
    ⟨0, 0, 0, .nil 0, by decide +kernel, by decide +kernel⟩, ?_⟩
  · intro s a h; rw [Graph.arcs_setFinal] at h; cases s <;> simp [Graph.init, Graph.arcs] at h
  · intro s w h
    rw [Graph.final_setFinal] at h
    split at h
    · rename_i hs; subst hs; decide
    · simp [Graph.init, Graph.final, mapGet] at h
  · intro s a h; cases s <;> simp [Graph.init, Graph.arcs] at h
  · intro s w h; simp [Graph.init, Graph.final, mapGet] at h
  · rintro ⟨q, v, f, _, hf, _⟩
    exact absurd hf (by simp [Graph.init, Graph.final, mapGet])

end Hfst.Att
