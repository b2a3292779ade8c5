import Verif.Props.Lexc
import Verif.Props.LexcBackend
import Mathlib.Data.List.Infix

/-!
# C71: examples and counterexamples
-/
namespace Hfst.Lexc
open Hfst.Basic
open Hfst.Basic.Graph (init)
open Hfst.Tok (Bytes Byte Cut)

/-! ## Checking the conditions -/

/-- Checks a cut (no code of the repository). -/
def cutCheck (syms : List Bytes) (size : Bytes → Nat) : Bytes → List Bytes → Bool
  | s, [] => s.isEmpty
  | s, p :: ps => decide (p ≠ []) && p.isPrefixOf s &&
      ((decide (p ∈ syms) && syms.all fun q => !q.isPrefixOf s || decide (q.length ≤ p.length)) ||
        ((syms.all fun q => !q.isPrefixOf s) && decide (p.length = size s))) &&
      cutCheck syms size (s.drop p.length) ps

theorem cutCheck_sound {syms : List Bytes} {size : Bytes → Nat} {s : Bytes} {ps : List Bytes}
    (h : cutCheck syms size s ps = true) : Cut syms size s ps := by
  induction ps generalizing s with
  | nil =>
    simp only [cutCheck, List.isEmpty_iff] at h
    subst h
    exact .nil
  | cons p ps ih =>
    simp only [cutCheck, Bool.and_eq_true, Bool.or_eq_true, decide_eq_true_eq, List.all_eq_true, Bool.not_eq_true',
      List.isPrefixOf_iff_prefix] at h
    obtain ⟨⟨⟨h1, r, rfl⟩, h3⟩, h4⟩ := h
    rw [List.drop_left] at h4
    rcases h3 with ⟨h3, h5⟩ | ⟨h3, h5⟩
    · refine .sym h1 ⟨h3, List.prefix_append _ _, ?_⟩ (ih h4)
      intro q hq hp
      rcases h5 q hq with h | h
      · rw [← List.isPrefixOf_iff_prefix, h] at hp; cases hp
      · exact h
    · refine .char h1 ?_ h5 (ih h4)
      intro q hq hp
      have := h3 q hq
      rw [← List.isPrefixOf_iff_prefix, this] at hp
      cases hp

theorem textOk_split {cfg : Config} (hs : cfg.split = true) {t : Bytes} (ht : ∀ x ∈ t, x ≠ 36 ∧ x ≠ 0 ∧ x ≠ 255) :
    TextOk cfg t := by
  refine ⟨ht, ?_⟩
  intro r c _ hr
  cases r with
  | nil => exact absurd rfl hr
  | cons x r => simp [Tok.charSize, hs]

theorem apart_split {cfg : Config} (hs : cfg.split = true) {known : List Bytes} {t : Bytes}
    (h : ∀ q ∈ known, ∀ r ∈ t.tails, r ≠ [] → (r ++ [64]).isPrefixOf q = false) : Apart cfg known t := by
  constructor
  · intro r c hr hne q hq hp
    by_contra hlen
    have hr' : r ∈ t.tails := (List.mem_tails r t).mpr hr
    have h1 : r ++ [64] <+: r ++ (lit "@@ANOTHER_EPSILON@@" ++ c) := by
      rw [List.prefix_append_right_inj]
      exact ⟨lit "@ANOTHER_EPSILON@@" ++ c, rfl⟩
    have h2 : r ++ [64] <+: q := List.prefix_of_prefix_length_le h1 hp (by simp; omega)
    have := h q hq r hr' hne
    rw [List.isPrefixOf_iff_prefix.mpr h2] at this
    cases this
  · intro r c _ hr
    cases r with
    | nil => exact absurd rfl hr
    | cons x r => simp [Tok.charSize, hs]

/-! ## A lexicon that meets the conditions -/

/-- A transducer for one pair (no code of the repository). -/
def one (x y : String) (w : Int) : Graph :=
  { states := [[⟨1, x.toList, y.toList, 0⟩], []], finals := [(1, w)], alphabet := [epsilon, unknown, identity, x.toList, y.toList] }

/-- Settings for the examples: characters are code points, there are two regular expressions (no code of the repository). -/
def demoCfg : Config where
  split := true
  grapheme := fun _ => 1
  clusters := fun _ => []
  xre := fun re => if re = lit "r" then some (one "x" "y" 3) else if re = lit "s" then some (one "z" "z" 0) else none
  werror := false
  warnMissing := false
  warnRepeated := false

/-- An entry with a fixed sequence (no code of the repository). -/
def plainEntry (lex cont : String) (l : List (Sym × Sym)) (w : Int) (symbols : List Sym) : Entry :=
  { lex := lit lex, cont := lit cont, weight := w, regexp := false, symbols := symbols, lang := fun l' v => l' = l ∧ 0 ≤ v }

/-- An entry with a regular expression (no code of the repository). -/
def regEntry (lex cont : String) (g : Graph) (w : Int) : Entry :=
  { lex := lit lex, cont := lit cont, weight := w, regexp := true, symbols := [], lang := Cost g }

theorem one_good (x y : String) (w : Int) : Good (one x y w) := by
  refine ⟨⟨by simp [one], ?_, ?_⟩, ⟨?_, by simp [one], by simp [one], by simp [one]⟩, by simp [FinalMap, one]⟩
  · intro s a ha
    have := Graph.lt_of_mem_arcs ha
    match s, this with
    | 0, _ => simp [one, Graph.arcs] at ha; subst ha; simp [one]
    | 1, _ => simp [one, Graph.arcs] at ha
    | n + 2, h => simp [one] at h; omega
  · intro s v hv
    have := mapGet_mem hv
    simp [one] at this
    simp [one, this.1]
  · intro s a ha
    have := Graph.lt_of_mem_arcs ha
    match s, this with
    | 0, _ => simp [one, Graph.arcs] at ha; subst ha; simp [one]
    | 1, _ => simp [one, Graph.arcs] at ha
    | n + 2, h => simp [one] at h; omega

theorem one_label {x y : String} {w : Int} {p : Sym × Sym} (h : HasLabel (one x y w) p) : p = (x.toList, y.toList) := by
  obtain ⟨s, a, ha, rfl⟩ := h
  have := Graph.lt_of_mem_arcs ha
  match s, this with
  | 0, _ => simp [one, Graph.arcs] at ha; subst ha; rfl
  | 1, _ => simp [one, Graph.arcs] at ha
  | n + 2, h => simp [one] at h; omega

theorem demo_regexps (re : Bytes) (g : Graph) (h : demoCfg.xre re = some g) : Good g ∧ Closed g := by
  simp only [demoCfg] at h
  split at h
  · cases h
    refine ⟨one_good _ _ _, ?_⟩
    intro p hp
    rw [one_label hp]
    decide
  · split at h
    · cases h
      refine ⟨one_good _ _ _, ?_⟩
      intro p hp
      rw [one_label hp]
      decide
    · cases h

theorem one_accepts (x y : String) (w : Int) : Accepts (one x y w) [(x.toList, y.toList)] w := by
  refine ⟨1, 0 + 0, w, ?_, by simp [one, Graph.final, mapGet], by omega⟩
  exact Path.cons (g := one x y w) (s := 0) (a := ⟨1, x.toList, y.toList, 0⟩) (by simp [one, Graph.arcs]) (.nil 1)

/-- `Multichar_Symbols +Pl`, `LEXICON Root`, `ca N "weight: 2"; < r > #;`, `LEXICON N`, `+Pl:s #;`. -/
def demoCalls : List Call :=
  [.multichar (lit "+Pl"), .lexicon (lit "Root"), .string (lit "ca") (lit "N") 2, .regexp (lit "r") (lit "#") 0,
    .lexicon (lit "N"), .pair (lit "+Pl") (lit "s") (lit "#") 0]

/-- What these lines stand for. -/
def demoEntries : List Entry :=
  [plainEntry "Root" "N" [("c".toList, "c".toList), ("a".toList, "a".toList)] 2 ["c".toList, "a".toList],
    regEntry "Root" "#" (one "x" "y" 3) 0,
    plainEntry "N" "#" [("+Pl".toList, "s".toList)] 0 ["+Pl".toList, "s".toList]]

/-- The symbols known in the end. -/
def demoKnown : List Bytes :=
  [lit "+Pl", lit "+Pl", lit "+Pl", lit "c", lit "c", lit "a", lit "a", lit "x", lit "y", lit "+Pl", lit "s"]

section
variable {cfg : Config} {f : Graph → List Sym} {known known' : List Bytes} {lex : Bytes} {xs : List Call} {es : List Entry}

theorem reads_string {data cont : Bytes} {w : Int} {l : List (Sym × Sym)} {ss : List Sym} (toks k : List Bytes)
    (h1 : cutCheck (known ++ clustersOf cfg data ++ baseSymbols) (Tok.charSize cfg.grapheme cfg.split) data toks = true)
    (h2 : strip (toks.map fun t => (symbol t, symbol t)) = l) (h3 : toks.map symbol = ss)
    (h4 : known ++ clustersOf cfg data ++ learned (known ++ clustersOf cfg data) (toks.map fun t => (spelled t, spelled t)) = k)
    (h : Reads cfg f k lex xs es known') :
    Reads cfg f known lex (.string data cont w :: xs)
      ({ lex := lex, cont := cont, weight := w, regexp := false, symbols := ss, lang := fun l' v => l' = l ∧ 0 ≤ v } :: es)
      known' := by
  subst h2 h3 h4
  exact .string (cutCheck_sound h1) h

theorem reads_pair {upper lower cont : Bytes} {w : Int} {l : List (Sym × Sym)} {ss : List Sym} (us ls k : List Bytes)
    (h0 : clustersOf cfg (side upper) = [] ∧ clustersOf cfg (side lower) = [])
    (h1 : cutCheck (known ++ baseSymbols) (Tok.charSize cfg.grapheme cfg.split) (side upper) us = true)
    (h2 : cutCheck (known ++ baseSymbols) (Tok.charSize cfg.grapheme cfg.split) (side lower) ls = true)
    (h3 : strip (zipPad epsilon (us.map symbol) (ls.map symbol)) = l) (h4 : us.map symbol ++ ls.map symbol = ss)
    (h5 : known ++ learned known ((zipPad (lit "@@ANOTHER_EPSILON@@") us ls).map fun p => (spelled p.1, spelled p.2)) = k)
    (h : Reads cfg f k lex xs es known') :
    Reads cfg f known lex (.pair upper lower cont w :: xs)
      ({ lex := lex, cont := cont, weight := w, regexp := false, symbols := ss, lang := fun l' v => l' = l ∧ 0 ≤ v } :: es)
      known' := by
  subst h3 h4 h5
  have e : known ++ clustersOf cfg (side upper) ++ clustersOf cfg (side lower) = known := by simp [h0.1, h0.2]
  refine .pair (us := us) (ls := ls) ?_ ?_ ?_
  · rw [e]; exact cutCheck_sound h1
  · rw [e]; exact cutCheck_sound h2
  · rw [e]; exact h

end

theorem demo_reads : Reads demoCfg (fun g => (reference.optimize g).alphabet) [] [] demoCalls demoEntries demoKnown := by
  refine .multichar (.lexicon ?_)
  refine reads_string [lit "c", lit "a"] [lit "+Pl", lit "+Pl", lit "+Pl", lit "c", lit "c", lit "a", lit "a"]
    (by decide +kernel) (by decide +kernel) (by decide +kernel) (by decide +kernel) ?_
  refine .regexp (g := one "x" "y" 3) rfl (.lexicon ?_)
  refine reads_pair [lit "+Pl"] [lit "s"] demoKnown (by decide) (by decide +kernel) (by decide +kernel)
    (by simp only [zipPad, List.map_cons, List.map_nil]; decide +kernel) (by decide +kernel) (by simp only [zipPad]; decide +kernel) .nil

theorem demo_clean : Clean demoCfg demoCalls demoEntries demoKnown where
  lines := by
    intro x hx
    simp only [demoCalls, List.mem_cons, List.not_mem_nil, or_false] at hx
    rcases hx with rfl | rfl | rfl | rfl | rfl | rfl
    · trivial
    · exact nameOk_of_all (by decide)
    · exact ⟨nameOk_of_all (by decide), textOk_split rfl (by decide)⟩
    · exact ⟨nameOk_of_all (by decide), demo_regexps _⟩
    · exact nameOk_of_all (by decide)
    · exact ⟨nameOk_of_all (by decide), textOk_split rfl (by decide), textOk_split rfl (by decide),
        apart_split rfl (by decide +kernel), apart_split rfl (by decide +kernel)⟩
  plain := by unfold Plain; decide +kernel
  symbols := by decide +kernel
  inside := by decide +kernel
  filled := by decide +kernel
  some_lexicon := by decide +kernel

theorem demo_keys : KeysApart demoEntries := by
  intro e he e' he' hx hx' _
  simp only [demoEntries, List.mem_cons, List.not_mem_nil, or_false] at he he'
  rcases he with rfl | rfl | rfl
  · cases hx
  · rcases he' with rfl | rfl | rfl
    · cases hx'
    · exact ⟨rfl, rfl⟩
    · cases hx'
  · cases hx

/-- The hypotheses of `C71_compile_partial` are met by a lexicon with a multicharacter symbol, a pair, a regular expression and
a weight; its words are `ca` with `+Pl:s` for 2 and `x:y` for 3. -/
example : ∃ c g, (Compiler.create true).run demoCfg reference demoCalls = .ok c ∧ c.compile demoCfg reference = .ok (some g) ∧
    (∀ l w, Cost g l w ↔ Chain demoEntries (lit "Root") l w) ∧
    Cost g [("c".toList, "c".toList), ("a".toList, "a".toList), ("+Pl".toList, "s".toList)] 2 ∧
    Cost g [("x".toList, "y".toList)] 3 := by
  obtain ⟨c, h1, h2⟩ := C71_compile_partial demoCfg reference reference_ok true demoCalls demoEntries demoKnown demo_reads
    demo_clean (by decide +kernel) demo_keys (.inl rfl)
  rcases h2 with ⟨h2, _⟩ | ⟨g, h2, h3⟩
  · cases h2
  · refine ⟨c, g, h1, h2, h3, (h3 _ _).mpr ?_, (h3 _ _).mpr ?_⟩
    · have a1 : plainEntry "N" "#" [("+Pl".toList, "s".toList)] 0 ["+Pl".toList, "s".toList] ∈ demoEntries := by simp [demoEntries]
      have a2 : plainEntry "Root" "N" [("c".toList, "c".toList), ("a".toList, "a".toList)] 2 ["c".toList, "a".toList] ∈
        demoEntries := by simp [demoEntries]
      exact Chain.more (w' := 0) a2 (v := 0) ⟨rfl, by omega⟩ (Chain.last a1 rfl (v := 0) ⟨rfl, by omega⟩ (by decide)) (by decide)
    · have a1 : regEntry "Root" "#" (one "x" "y" 3) 0 ∈ demoEntries := by simp [demoEntries]
      exact Chain.last a1 rfl (v := 3) ⟨_, 3, one_accepts "x" "y" 3, by decide +kernel, by omega⟩ (by decide)

/-- The same for a compiler that was used before. -/
example (c0 : Compiler) : ∃ c g, c0.reset.run demoCfg reference demoCalls = .ok c ∧
    c.compile demoCfg reference = .ok (some g) ∧ ∀ l w, Cost g l w ↔ Chain demoEntries (lit "Root") l w := by
  obtain ⟨c, h1, h2⟩ := C71_reset_partial demoCfg reference reference_ok c0 demoCalls demoEntries demoKnown demo_reads
    demo_clean (by decide +kernel) demo_keys (.inr (by decide +kernel)) (by decide +kernel)
  rcases h2 with ⟨h2, _⟩ | ⟨g, h2, h3⟩
  · cases h2
  · exact ⟨c, g, h1, h2, h3⟩

/-! ## Where lexicons are not compiled as they should be -/

theorem one_cost {x y : String} {w v : Int} {l : List (Sym × Sym)} (h : Cost (one x y w) l v) :
    ∀ p ∈ l, p = (x.toList, y.toList) := fun p hp => one_label (h.labels p hp)

/-- `LEXICON Root`, `< r > # "weight: 1"; < s > # "weight: -1";`. -/
def weightCalls : List Call := [.lexicon (lit "Root"), .regexp (lit "r") (lit "#") 1, .regexp (lit "s") (lit "#") (-1)]

/-- What these lines stand for. -/
def weightEntries : List Entry := [regEntry "Root" "#" (one "x" "y" 3) 1, regEntry "Root" "#" (one "z" "z" 0) (-1)]

theorem weight_reads : Reads demoCfg (fun g => (reference.optimize g).alphabet) [] [] weightCalls weightEntries
    [lit "x", lit "y", lit "z", lit "z"] :=
  .lexicon (.regexp (g := one "x" "y" 3) rfl (.regexp (g := one "z" "z" 0) rfl .nil))

theorem weight_clean : Clean demoCfg weightCalls weightEntries [lit "x", lit "y", lit "z", lit "z"] where
  lines := by
    intro x hx
    simp only [weightCalls, List.mem_cons, List.not_mem_nil, or_false] at hx
    rcases hx with rfl | rfl | rfl
    · exact nameOk_of_all (by decide)
    · exact ⟨nameOk_of_all (by decide), demo_regexps _⟩
    · exact ⟨nameOk_of_all (by decide), demo_regexps _⟩
  plain := by unfold Plain; decide +kernel
  symbols := by decide +kernel
  inside := by decide +kernel
  filled := by decide +kernel
  some_lexicon := by decide +kernel

theorem weight_chain {l : List (Sym × Sym)} {w : Int} {n : Bytes} (h : Chain weightEntries n l w) (hn : n = lit "Root")
    (hl : l = [("x".toList, "y".toList)]) : 4 ≤ w := by
  induction h with
  | @last e l v w he _ hlang hw =>
    simp only [weightEntries, List.mem_cons, List.not_mem_nil, or_false] at he
    subst hl
    rcases he with rfl | rfl
    · obtain ⟨l', w', ⟨q, u, f, hp, hf, rfl⟩, _, hv⟩ := hlang
      have hw' : v + 1 ≤ w := hw
      have hf' := mapGet_mem hf
      simp only [one, List.mem_singleton, Prod.mk.injEq] at hf'
      obtain ⟨rfl, rfl⟩ := hf'
      have hz : ∀ {s l u q}, Path (one "x" "y" 3) s l u q → u = 0 := by
        intro s l u q hp
        induction hp with
        | nil => rfl
        | @cons s q a l w ha _ ih =>
          have := Graph.lt_of_mem_arcs ha
          match s, this with
          | 0, _ => simp [one, Graph.arcs] at ha; subst ha; simp [ih]
          | 1, _ => simp [one, Graph.arcs] at ha
          | n + 2, h => simp [one] at h; omega
      have := hz hp
      omega
    · exact absurd (one_cost hlang _ (List.mem_singleton.mpr rfl)) (by decide)
  | @more e l l' v w w' he _ hc _ _ =>
    simp only [weightEntries, List.mem_cons, List.not_mem_nil, or_false] at he
    have : e.cont = lit "#" := by rcases he with rfl | rfl <;> rfl
    rw [this] at hc
    generalize hm : lit "#" = m at hc
    cases hc with
    | @last e _ v w he _ _ _ =>
      simp only [weightEntries, List.mem_cons, List.not_mem_nil, or_false] at he
      rcases he with rfl | rfl <;> exact absurd hm (by decide)
    | @more e l l' v w w' he _ _ _ =>
      simp only [weightEntries, List.mem_cons, List.not_mem_nil, or_false] at he
      rcases he with rfl | rfl <;> exact absurd hm (by decide)

/-- Two regular expressions of a lexicon with the same continuation and different weights: both get the smaller weight.  `x:y`
should weigh 4 and weighs 2. -/
theorem C71_weights_violated : ∃ calls es known, Reads demoCfg (fun g => (reference.optimize g).alphabet) [] [] calls es known ∧
    Clean demoCfg calls es known ∧ ∃ c g, (Compiler.create true).run demoCfg reference calls = .ok c ∧
      c.compile demoCfg reference = .ok (some g) ∧ Cost g [("x".toList, "y".toList)] 2 ∧
      ¬ Chain es (startLexicon calls) [("x".toList, "y".toList)] 2 := by
  refine ⟨weightCalls, weightEntries, _, weight_reads, weight_clean, ?_⟩
  obtain ⟨c, h1, h2⟩ := C71_collected demoCfg reference reference_ok true weightCalls weightEntries _ weight_reads
    weight_clean (.inl rfl)
  rcases h2 with ⟨h2, _⟩ | ⟨g, h2, h3⟩
  · cases h2
  · refine ⟨c, g, h1, h2, (h3 _ _).mpr (.inl ?_), ?_⟩
    · have a1 : { regEntry "Root" "#" (one "z" "z" 0) (-1) with lang := (regEntry "Root" "#" (one "x" "y" 3) 1).lang } ∈
          collected weightEntries :=
        mem_collected.mpr (.inr ⟨regEntry "Root" "#" (one "z" "z" 0) (-1), by simp [weightEntries],
          regEntry "Root" "#" (one "x" "y" 3) 1, by simp [weightEntries], rfl, rfl, rfl, rfl⟩)
      exact Chain.last a1 rfl (v := 3) ⟨_, 3, one_accepts "x" "y" 3, by decide +kernel, by omega⟩ (by decide)
    · intro h
      have := weight_chain h (by decide +kernel) rfl
      omega

/-- `LEXICON A`, `< r > B_C;`, `LEXICON A_B`, `< s > C;`, `LEXICON B_C`, `#;`, `LEXICON C`, `#;`. -/
def keyCalls : List Call :=
  [.lexicon (lit "A"), .regexp (lit "r") (lit "B_C") 0, .lexicon (lit "A_B"), .regexp (lit "s") (lit "C") 0,
    .lexicon (lit "B_C"), .string [] (lit "#") 0, .lexicon (lit "C"), .string [] (lit "#") 0]

/-- What these lines stand for. -/
def keyEntries : List Entry :=
  [regEntry "A" "B_C" (one "x" "y" 3) 0, regEntry "A_B" "C" (one "z" "z" 0) 0, plainEntry "B_C" "#" [] 0 [], plainEntry "C" "#" [] 0 []]

theorem key_reads : Reads demoCfg (fun g => (reference.optimize g).alphabet) [] [] keyCalls keyEntries
    [lit "x", lit "y", lit "z", lit "z"] := by
  refine .lexicon (.regexp (g := one "x" "y" 3) rfl (.lexicon (.regexp (g := one "z" "z" 0) rfl (.lexicon ?_))))
  refine reads_string [] [lit "x", lit "y", lit "z", lit "z"] (by decide +kernel) (by decide +kernel) (by decide +kernel)
    (by decide +kernel) (.lexicon ?_)
  exact reads_string [] [lit "x", lit "y", lit "z", lit "z"] (by decide +kernel) (by decide +kernel) (by decide +kernel)
    (by decide +kernel) .nil

theorem key_clean : Clean demoCfg keyCalls keyEntries [lit "x", lit "y", lit "z", lit "z"] where
  lines := by
    intro x hx
    simp only [keyCalls, List.mem_cons, List.not_mem_nil, or_false] at hx
    rcases hx with rfl | rfl | rfl | rfl | rfl | rfl | rfl | rfl
    · exact nameOk_of_all (by decide)
    · exact ⟨nameOk_of_all (by decide), demo_regexps _⟩
    · exact nameOk_of_all (by decide)
    · exact ⟨nameOk_of_all (by decide), demo_regexps _⟩
    · exact nameOk_of_all (by decide)
    · exact ⟨nameOk_of_all (by decide), textOk_split rfl (by decide)⟩
    · exact nameOk_of_all (by decide)
    · exact ⟨nameOk_of_all (by decide), textOk_split rfl (by decide)⟩
  plain := by unfold Plain; decide +kernel
  symbols := by decide +kernel
  inside := by decide +kernel
  filled := by decide +kernel
  some_lexicon := by decide +kernel

theorem key_end {n : Bytes} {l : List (Sym × Sym)} {w : Int} (h : Chain keyEntries n l w) :
    n ≠ lit "#" ∧ (n = lit "B_C" → l = []) := by
  induction h with
  | @last e l v w he _ hl _ =>
    simp only [keyEntries, List.mem_cons, List.not_mem_nil, or_false] at he
    rcases he with rfl | rfl | rfl | rfl
    · exact ⟨by decide, fun h => absurd h (by decide)⟩
    · exact ⟨by decide, fun h => absurd h (by decide)⟩
    · exact ⟨by decide, fun _ => hl.1⟩
    · exact ⟨by decide, fun h => absurd h (by decide)⟩
  | @more e l l' v w w' he hl _ _ ih =>
    simp only [keyEntries, List.mem_cons, List.not_mem_nil, or_false] at he
    rcases he with rfl | rfl | rfl | rfl
    · exact ⟨by decide, fun h => absurd h (by decide)⟩
    · exact ⟨by decide, fun h => absurd h (by decide)⟩
    · exact absurd rfl ih.1
    · exact absurd rfl ih.1

theorem key_chain {n : Bytes} {l : List (Sym × Sym)} {w : Int} (h : Chain keyEntries n l w) (hn : n = lit "A") :
    ∀ p ∈ l, p = ("x".toList, "y".toList) := by
  cases h with
  | @last e _ v w he hk hl _ =>
    simp only [keyEntries, List.mem_cons, List.not_mem_nil, or_false] at he
    rcases he with rfl | rfl | rfl | rfl
    · exact one_cost hl
    all_goals exact absurd hn (by decide)
  | @more e l l' v w w' he hl hc _ =>
    simp only [keyEntries, List.mem_cons, List.not_mem_nil, or_false] at he
    rcases he with rfl | rfl | rfl | rfl
    · rw [(key_end hc).2 rfl, List.append_nil]; exact one_cost hl
    all_goals exact absurd hn (by decide)

/-- Names of lexicons with an underscore: the regular expressions of lexicon `A` with continuation `B_C` and of lexicon `A_B`
with continuation `C` are taken for each other.  `z` is accepted although it only occurs in `A_B`, which no entry leads to. -/
theorem C71_keys_violated : ∃ calls es known, Reads demoCfg (fun g => (reference.optimize g).alphabet) [] [] calls es known ∧
    Clean demoCfg calls es known ∧ ∃ c g, (Compiler.create true).run demoCfg reference calls = .ok c ∧
      c.compile demoCfg reference = .ok (some g) ∧ Cost g [("z".toList, "z".toList)] 0 ∧
      ∀ w, ¬ Chain es (startLexicon calls) [("z".toList, "z".toList)] w := by
  refine ⟨keyCalls, keyEntries, _, key_reads, key_clean, ?_⟩
  obtain ⟨c, h1, h2⟩ := C71_collected demoCfg reference reference_ok true keyCalls keyEntries _ key_reads key_clean (.inl rfl)
  rcases h2 with ⟨h2, _⟩ | ⟨g, h2, h3⟩
  · cases h2
  · refine ⟨c, g, h1, h2, (h3 _ _).mpr (.inl ?_), ?_⟩
    · have a1 : { regEntry "A" "B_C" (one "x" "y" 3) 0 with lang := (regEntry "A_B" "C" (one "z" "z" 0) 0).lang } ∈
          collected keyEntries :=
        mem_collected.mpr (.inr ⟨regEntry "A" "B_C" (one "x" "y" 3) 0, by simp [keyEntries],
          regEntry "A_B" "C" (one "z" "z" 0) 0, by simp [keyEntries], rfl, rfl, by decide +kernel, rfl⟩)
      have a2 : plainEntry "B_C" "#" [] 0 [] ∈ collected keyEntries :=
        mem_collected.mpr (.inl ⟨by simp [keyEntries], rfl⟩)
      have e : startLexicon keyCalls = lit "A" := by decide +kernel
      rw [e]
      exact Chain.more (l := [("z".toList, "z".toList)]) (l' := []) (w' := 0) a1 (v := 0)
        ⟨_, 0, one_accepts "z" "z" 0, by decide +kernel, by omega⟩
        (Chain.last a2 rfl (v := 0) ⟨rfl, by omega⟩ (by decide)) (by decide)
    · intro w h
      have := key_chain h (by decide +kernel) _ (List.mem_singleton.mpr rfl)
      exact absurd this (by decide)

/-! ## Lexicons of which nothing is left -/

/-- The states that can be reached (no code of the repository). -/
def reach (g : Graph) : Nat → List Nat → List Nat → List Nat
  | 0, seen, _ => seen
  | _, seen, [] => seen
  | n + 1, seen, s :: todo =>
    let new := ((g.arcs s).map (·.target)).foldl (fun acc t => if t ∈ seen ∨ t ∈ acc then acc else t :: acc) []
    reach g n (new ++ seen) (new ++ todo)

/-- No final state can be reached (no code of the repository). -/
def dead (g : Graph) : Bool :=
  let S := reach g 1000 [0] [0]
  decide (0 ∈ S) && S.all fun s => (g.final s).isNone && (g.arcs s).all fun a => decide (a.target ∈ S)

theorem dead_cost {g : Graph} (h : dead g = true) (l : List (Sym × Sym)) (w : Int) : ¬ Cost g l w := by
  rintro ⟨l', w', ⟨q, v, f, hp, hf, _⟩, _, _⟩
  simp only [dead, Bool.and_eq_true, decide_eq_true_eq, List.all_eq_true, Option.isNone_iff_eq_none] at h
  obtain ⟨h0, h⟩ := h
  have key : ∀ {s l v q}, Path g s l v q → s ∈ reach g 1000 [0] [0] → q ∈ reach g 1000 [0] [0] := by
    intro s l v q hp
    induction hp with
    | nil s => exact id
    | cons ha _ ih => intro hs; exact ih ((h _ hs).2 _ ha)
  rw [(h q (key hp h0)).1] at hf
  cases hf

/-- The result of a compilation (no code of the repository). -/
def result (c : Compiler) (calls : List Call) : Outcome (Option Graph) :=
  (c.run demoCfg reference calls).bind fun c => c.compile demoCfg reference

/-- Whether a transducer results and accepts nothing (no code of the repository). -/
def nothing : Outcome (Option Graph) → Bool
  | .ok (some g) => dead g
  | _ => false

theorem nothing_spec {c : Compiler} {calls : List Call} (h : nothing (result c calls) = true) :
    ∃ c' g, c.run demoCfg reference calls = .ok c' ∧ c'.compile demoCfg reference = .ok (some g) ∧ ∀ l w, ¬ Cost g l w := by
  unfold result at h
  cases hr : c.run demoCfg reference calls with
  | throws => rw [hr] at h; cases h
  | undefined => rw [hr] at h; cases h
  | ok c' =>
    rw [hr] at h
    simp only [Outcome.bind] at h
    cases hc : c'.compile demoCfg reference with
    | throws => rw [hc] at h; cases h
    | undefined => rw [hc] at h; cases h
    | ok o =>
      rw [hc] at h
      cases o with
      | none => cases h
      | some g => exact ⟨c', g, rfl, hc, dead_cost h⟩

/-- `LEXICON` with a name, and in it one entry without a continuation. -/
def oneCalls (name text : String) : List Call := [.lexicon (lit name), .string (lit text) (lit "#") 0]

theorem one_chain {lex : String} {l : List (Sym × Sym)} {ss : List Sym} : Chain [plainEntry lex "#" l 0 ss] (lit lex) l 0 :=
  Chain.last (e := plainEntry lex "#" l 0 ss) (by simp) rfl (v := 0) ⟨rfl, by omega⟩ (by simp [plainEntry])

theorem one_clean {name text : String} {ss : List Sym} {l : List (Sym × Sym)} {known : List Bytes} {pre : List Call}
    (hpre : ∀ x ∈ pre, ∃ m, x = .multichar m) (hn : NameOk (lit name)) (ht : ∀ x ∈ lit text, x ≠ 36 ∧ x ≠ 0 ∧ x ≠ 255)
    (hk : ∀ q ∈ known, q ≠ [] ∧ Plain q ∧ (lit "@@ANOTHER_EPSILON@@" <+: q → q = lit "@@ANOTHER_EPSILON@@"))
    (hss : ∀ x ∈ ss, x = epsilon ∨ ¬ sym (lit "@_") <+: x ∧ ¬ sym (lit "@@ANOTHER_EPSILON@@") <+: x) :
    Clean demoCfg (pre ++ oneCalls name text) [plainEntry name "#" l 0 ss] known := by
  have hnames : lexiconNames (pre ++ oneCalls name text) = [lit name] := by
    induction pre with
    | nil => rfl
    | cons x pre ih =>
      obtain ⟨m, rfl⟩ := hpre x (by simp)
      exact ih fun x hx => hpre x (by simp [hx])
  refine ⟨?_, hk, ?_, ?_, ?_, ?_⟩
  · intro x hx
    rcases List.mem_append.mp hx with hx | hx
    · obtain ⟨m, rfl⟩ := hpre x hx; trivial
    · simp only [oneCalls, List.mem_cons, List.not_mem_nil, or_false] at hx
      rcases hx with rfl | rfl
      · exact hn
      · exact ⟨nameOk_of_all (by decide), textOk_split rfl ht⟩
  · intro e he
    simp only [List.mem_singleton] at he
    subst he
    exact hss
  · intro e he
    simp only [List.mem_singleton] at he
    subst he
    rw [hnames]
    simp [plainEntry]
  · intro n hn
    rw [hnames] at hn
    simp only [List.mem_singleton] at hn
    subst hn
    exact ⟨_, List.mem_singleton.mpr rfl, rfl⟩
  · rw [hnames]; simp

theorem first_reads (name : String) : Reads demoCfg (fun g => (reference.optimize g).alphabet) [] [] (oneCalls name "b")
    [plainEntry name "#" [("b".toList, "b".toList)] 0 ["b".toList]] [lit "b", lit "b"] :=
  .lexicon (reads_string [lit "b"] [lit "b", lit "b"] (by decide +kernel) (by decide +kernel) (by decide +kernel) (by decide +kernel) .nil)

theorem first_clean (name : String) (hn : NameOk (lit name)) : Clean demoCfg (oneCalls name "b")
    [plainEntry name "#" [("b".toList, "b".toList)] 0 ["b".toList]] [lit "b", lit "b"] :=
  one_clean (pre := []) (by simp) hn (by decide) (by unfold Plain; decide +kernel) (by decide +kernel)

/-- Only the first compilation of a process knows which lexicon is the first one.  The second time, a file without a lexicon
`Root` gives a transducer that accepts nothing. -/
theorem C71_first_violated : ∃ calls es known, Reads demoCfg (fun g => (reference.optimize g).alphabet) [] [] calls es known ∧
    Clean demoCfg calls es known ∧ startLexicon calls ≠ lit "#" ∧ KeysApart es ∧
    Chain es (startLexicon calls) [("b".toList, "b".toList)] 0 ∧
    (∃ c g, (Compiler.create true).run demoCfg reference calls = .ok c ∧ c.compile demoCfg reference = .ok (some g) ∧
      Cost g [("b".toList, "b".toList)] 0) ∧
    ∃ c g, (Compiler.create false).run demoCfg reference calls = .ok c ∧ c.compile demoCfg reference = .ok (some g) ∧
      ∀ l w, ¬ Cost g l w := by
  have hk : KeysApart [plainEntry "A" "#" [("b".toList, "b".toList)] 0 ["b".toList]] := by
    intro e he e' _ hx _ _
    simp only [List.mem_singleton] at he
    subst he
    cases hx
  have hch : Chain [plainEntry "A" "#" [("b".toList, "b".toList)] 0 ["b".toList]] (startLexicon (oneCalls "A" "b"))
      [("b".toList, "b".toList)] 0 := by
    rw [show startLexicon (oneCalls "A" "b") = lit "A" by decide +kernel]
    exact one_chain
  refine ⟨oneCalls "A" "b", _, _, first_reads "A", first_clean "A" (nameOk_of_all (by decide)), by decide +kernel, hk, hch, ?_,
    nothing_spec (by decide +kernel)⟩
  obtain ⟨c, h1, h2⟩ := C71_compile_partial demoCfg reference reference_ok true _ _ _ (first_reads "A")
    (first_clean "A" (nameOk_of_all (by decide))) (by decide +kernel) hk (.inl rfl)
  rcases h2 with ⟨h2, _⟩ | ⟨g, h2, h3⟩
  · cases h2
  · exact ⟨c, g, h1, h2, (h3 _ _).mpr hch⟩

/-- A compiler made without arguments: its transducers accept nothing. -/
theorem C71_default_violated : ∃ calls es known, Reads demoCfg (fun g => (reference.optimize g).alphabet) [] [] calls es known ∧
    Clean demoCfg calls es known ∧ Chain es (startLexicon calls) [("b".toList, "b".toList)] 0 ∧
    ∃ c g, (Compiler.createDefault true).run demoCfg reference calls = .ok c ∧
      c.compile demoCfg reference = .ok (some g) ∧ ∀ l w, ¬ Cost g l w := by
  refine ⟨oneCalls "Root" "b", _, _, first_reads "Root", first_clean "Root" (nameOk_of_all (by decide)), ?_,
    nothing_spec (by decide +kernel)⟩
  rw [show startLexicon (oneCalls "Root" "b") = lit "Root" by decide +kernel]
  exact one_chain

/-- A declared symbol that begins with `@_`: the entries with it are lost. -/
theorem C71_at_violated : ∃ calls es known, Reads demoCfg (fun g => (reference.optimize g).alphabet) [] [] calls es known ∧
    (∀ x ∈ calls, CallOk demoCfg known x) ∧ Chain es (startLexicon calls) [("@_b".toList, "@_b".toList)] 0 ∧
    ∃ c g, (Compiler.create true).run demoCfg reference calls = .ok c ∧
      c.compile demoCfg reference = .ok (some g) ∧ ∀ l w, ¬ Cost g l w := by
  refine ⟨.multichar (lit "@_b") :: oneCalls "Root" "@_b",
    [plainEntry "Root" "#" [("@_b".toList, "@_b".toList)] 0 ["@_b".toList]],
    [lit "@_b", lit "@_b", lit "@_b", lit "@_b", lit "@_b"], .multichar (.lexicon (reads_string [lit "@_b"] _
      (by decide +kernel) (by decide +kernel) (by decide +kernel) (by decide +kernel) .nil)), ?_, ?_, nothing_spec (by decide +kernel)⟩
  · intro x hx
    simp only [oneCalls, List.mem_cons, List.not_mem_nil, or_false] at hx
    rcases hx with rfl | rfl | rfl
    · trivial
    · exact nameOk_of_all (by decide)
    · exact ⟨nameOk_of_all (by decide), textOk_split rfl (by decide)⟩
  · rw [show startLexicon (.multichar (lit "@_b") :: oneCalls "Root" "@_b") = lit "Root" by decide +kernel]
    exact one_chain

/-- A declared symbol that ends with `$`: an entry that ends like the rest of the symbol is lost, although the symbol does not
occur in it. -/
theorem C71_dollar_violated : ∃ calls es known, Reads demoCfg (fun g => (reference.optimize g).alphabet) [] [] calls es known ∧
    (∀ x ∈ calls, CallOk demoCfg known x) ∧ Chain es (startLexicon calls) [("a".toList, "a".toList)] 0 ∧
    ∃ c g, (Compiler.create true).run demoCfg reference calls = .ok c ∧
      c.compile demoCfg reference = .ok (some g) ∧ ∀ l w, ¬ Cost g l w := by
  refine ⟨.multichar (lit "a$") :: oneCalls "Root" "a",
    [plainEntry "Root" "#" [("a".toList, "a".toList)] 0 ["a".toList]],
    [lit "a$", lit "a$", lit "a$", lit "a", lit "a"], .multichar (.lexicon (reads_string [lit "a"] _
      (by decide +kernel) (by decide +kernel) (by decide +kernel) (by decide +kernel) .nil)), ?_, ?_, nothing_spec (by decide +kernel)⟩
  · intro x hx
    simp only [oneCalls, List.mem_cons, List.not_mem_nil, or_false] at hx
    rcases hx with rfl | rfl | rfl
    · trivial
    · exact nameOk_of_all (by decide)
    · exact ⟨nameOk_of_all (by decide), textOk_split rfl (by decide)⟩
  · rw [show startLexicon (.multichar (lit "a$") :: oneCalls "Root" "a") = lit "Root" by decide +kernel]
    exact one_chain

end Hfst.Lexc
