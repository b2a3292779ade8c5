import Verif.Props.LexcCompile

/-!
# C71: reading the lines
-/
namespace Hfst.Lexc
open Hfst.Basic
open Hfst.Basic.Graph (init)
open Hfst.Tok (Bytes Byte Ok Cut)

/-! ## Texts of symbols -/

theorem replaceFirst_nil {pat new s : Bytes} (hn : new ≠ []) (h : replaceFirst pat new s = []) : s = [] := by
  cases s with
  | nil => rfl
  | cons c s =>
    rw [replaceFirst] at h
    split at h
    · simp [hn] at h
    · cases h

theorem replaceFirst_mem {pat new s : Bytes} {x : Byte} (h : x ∈ replaceFirst pat new s) : x ∈ new ∨ x ∈ s := by
  induction s with
  | nil => cases h
  | cons c s ih =>
    rw [replaceFirst] at h
    split at h
    · rcases List.mem_append.mp h with h | h
      · exact .inl h
      · exact .inr (List.mem_of_mem_drop h)
    · rcases List.mem_cons.mp h with rfl | h
      · exact .inr (by simp)
      · rcases ih h with h | h
        · exact .inl h
        · exact .inr (by simp [h])

theorem replaceFirst_none {x : Byte} {pat new s : Bytes} (hp : pat.head? = some x) (h : x ∉ s) : replaceFirst pat new s = s := by
  induction s with
  | nil => rfl
  | cons c s ih =>
    rw [replaceFirst, if_neg, ih (fun hx => h (by simp [hx]))]
    intro hpre
    obtain ⟨t, ht⟩ := List.isPrefixOf_iff_prefix.mp hpre
    cases pat with
    | nil => cases hp
    | cons y pat =>
      simp only [List.head?_cons, Option.some.injEq] at hp
      simp only [List.cons_append, List.cons.injEq] at ht
      exact h (by rw [← hp, ht.1]; simp)

/-- The result has the new text in it unless nothing was replaced. -/
theorem replaceFirst_or {pat new s : Bytes} (hp : pat ≠ []) :
    replaceFirst pat new s = s ∧ ¬ pat <+: s ∨ (∀ x ∈ new, x ∈ replaceFirst pat new s) := by
  induction s with
  | nil => exact .inl ⟨rfl, by simpa using hp⟩
  | cons c s ih =>
    rw [replaceFirst]
    split
    · right; intro x hx; simp [hx]
    · rename_i hp
      have hp' : ¬ pat <+: c :: s := fun h => hp (List.isPrefixOf_iff_prefix.mpr h)
      rcases ih with ⟨ih, _⟩ | ih
      · exact .inl ⟨by rw [ih], hp'⟩
      · right; intro x hx; simp [ih x hx]

theorem zeroes_eq (t : Bytes) : zeroes t = spelled t := by
  unfold zeroes spelled
  by_cases h : t = lit "0"
  · rw [if_pos h, if_pos h]; decide
  · rw [if_neg h, if_neg h]

theorem spelled_ne_zero (t : Bytes) : spelled t ≠ lit "@ZERO@" := by
  unfold spelled
  split
  · decide
  · rcases replaceFirst_or (pat := lit "@ZERO@") (new := lit "0") (s := t) (by decide) with ⟨h1, h2⟩ | h
    · rw [h1]
      rintro rfl
      exact h2 (List.prefix_refl _)
    · intro e
      have := h 48 (by decide)
      rw [e] at this
      exact absurd this (by decide)

theorem spelled_plain {t : Bytes} (h : Plain t) : Plain (spelled t) := by
  unfold spelled
  split
  · intro x hx
    have : ∀ x ∈ lit "@0@", x ≠ 36 ∧ x ≠ 0 ∧ x ≠ 255 := by decide
    exact this x hx
  · intro x hx
    rcases replaceFirst_mem hx with hx | hx
    · have : ∀ x ∈ lit "0", x ≠ 36 ∧ x ≠ 0 ∧ x ≠ 255 := by decide
      exact this x hx
    · exact h x hx

theorem spelled_ne_nil {t : Bytes} (h : t ≠ []) : spelled t ≠ [] := by
  unfold spelled
  split
  · decide
  · intro e; exact h (replaceFirst_nil (by decide) e)

theorem ren_spelled (t : Bytes) : (smallSubstitutions.lookup (sym (spelled t))).getD (sym (spelled t)) = symbol t := by
  unfold symbol
  by_cases h1 : spelled t = lit "@0@"
  · rw [h1]; decide
  by_cases h2 : spelled t = lit "@@ANOTHER_EPSILON@@"
  · rw [h2]; decide
  rw [if_neg (by simp [h1, h2]), lookup_none]
  · rfl
  · intro e he hs
    simp only [smallSubstitutions, List.mem_cons, List.not_mem_nil, or_false] at he
    rcases he with rfl | rfl | rfl
    · exact h1 (sym_inj hs).symm
    · exact h2 (sym_inj hs).symm
    · exact spelled_ne_zero t (sym_inj hs).symm

theorem spelled_txt {t : Bytes} (hp : Plain t) (hn : t ≠ [])
    (h : symbol t = epsilon ∨ ¬ sym (lit "@_") <+: symbol t ∧ ¬ sym (lit "@@ANOTHER_EPSILON@@") <+: symbol t) :
    Txt0 (sym (spelled t)) := by
  by_cases h1 : spelled t = lit "@0@"
  · rw [h1]; exact .inr (.inl rfl)
  by_cases h2 : spelled t = lit "@@ANOTHER_EPSILON@@"
  · rw [h2]; exact .inr (.inr rfl)
  have e : symbol t = sym (spelled t) := by unfold symbol; rw [if_neg (by simp [h1, h2])]
  rw [e] at h
  rcases h with h | ⟨h3, h4⟩
  · exact .inl (.inl h)
  · exact .inl (.inr ⟨_, spelled_plain hp, spelled_ne_nil hn, rfl, h3, h4⟩)

theorem joiner_no_at {n : Bytes} (hn : NameOk n) : (64 : Byte) ∉ joiner n := by
  unfold joiner
  simp only [List.mem_append, not_or]
  exact ⟨⟨by decide, hn.2⟩, by decide⟩

theorem zeroes_joiner {n : Bytes} (hn : NameOk n) : zeroes (joiner n) = joiner n := by
  have h0 : joiner n ≠ lit "0" := by
    intro e
    have := (joiner_atom hn)
    obtain ⟨u, _, hu⟩ := this
    rw [e] at hu
    exact absurd (congrArg List.head? hu) (by rw [List.head?_cons]; decide)
  unfold zeroes
  rw [if_neg h0]
  exact replaceFirst_none (x := 64) (by decide) (joiner_no_at hn)

theorem marked_joiner {n : Bytes} (hn : NameOk n) : marked (joiner n) = true := by
  obtain ⟨u, _, hu⟩ := joiner_atom hn
  have h1 : (lit "$").isPrefixOf (joiner n) = true := by
    rw [hu, List.isPrefixOf_iff_prefix]
    exact ⟨95 :: (u ++ [36]), rfl⟩
  have h2 : (lit "$").isSuffixOf (joiner n) = true := by
    rw [hu, List.isSuffixOf_iff_suffix]
    exact ⟨36 :: 95 :: u, by simp; decide⟩
  simp [marked, h1, h2]

theorem marked_plain {x : Bytes} (h : Plain x) : marked x = atMarked x := by
  have : (lit "$").isPrefixOf x = false := by
    rw [← Bool.not_eq_true, List.isPrefixOf_iff_prefix]
    rintro ⟨t, rfl⟩
    exact (h 36 (by simp; left; decide)).1 rfl
  simp [marked, atMarked, this]

/-! ## The tokenizer and the alphabet -/

/-- The registered symbols and the alphabet match the known symbols. -/
structure Core (c : Compiler) (known : List Bytes) : Prop where
  regs : RegsOk c.regs
  from_regs : ∀ q, Plain q → q ≠ [] → q ∈ c.regs → q ∈ known ++ baseSymbols
  to_regs : ∀ q, q ∈ known ++ baseRegs → q ∈ c.regs
  alph : ∀ q, q ∈ c.alphabets ↔ q ∈ known
  plain : ∀ q ∈ known, q ≠ [] ∧ Plain q

theorem Core.congr {c : Compiler} {known known' : List Bytes} (h : Core c known) (he : ∀ q, q ∈ known ↔ q ∈ known') :
    Core c known' where
  regs := h.regs
  from_regs := by
    intro q h1 h2 h3
    have := h.from_regs q h1 h2 h3
    rw [List.mem_append, he] at this
    exact List.mem_append.mpr this
  to_regs := by
    intro q hq
    rw [List.mem_append, ← he] at hq
    exact h.to_regs q (List.mem_append.mpr hq)
  alph := by intro q; rw [h.alph, he]
  plain := by intro q hq; exact h.plain q ((he q).mpr hq)

/-- What the small steps leave alone. -/
structure Ext (cfg : Config) (c c' : Compiler) : Prop where
  trie : c'.trie = c.trie
  regexps : c'.regexps = c.regexps
  names : c'.names = c.names
  current : c'.current = c.current
  initial : c'.initial = c.initial
  first : c'.first = c.first
  regs : ∀ q ∈ c.regs, q ∈ c'.regs
  errors : cfg.werror = false → c.errors = false → c'.errors = false

theorem Ext.refl (cfg : Config) (c : Compiler) : Ext cfg c c := ⟨rfl, rfl, rfl, rfl, rfl, rfl, fun _ h => h, fun _ h => h⟩

theorem Ext.trans {cfg : Config} {a b c : Compiler} (h : Ext cfg a b) (h' : Ext cfg b c) : Ext cfg a c :=
  ⟨h'.trie.trans h.trie, h'.regexps.trans h.regexps, h'.names.trans h.names, h'.current.trans h.current,
    h'.initial.trans h.initial, h'.first.trans h.first, fun q hq => h'.regs q (h.regs q hq),
    fun hw he => h'.errors hw (h.errors hw he)⟩

theorem Core.internal {c : Compiler} {known : List Bytes} (h : Core c known) {x : Bytes} (hx : Internal x) (ho : Ok x) :
    Core (c.register x) known where
  regs := by
    intro r hr
    rcases List.mem_append.mp hr with hr | hr
    · exact h.regs r hr
    · simp only [List.mem_singleton] at hr; rw [hr]; exact ⟨ho, .inr hx⟩
  from_regs := by
    intro q h1 h2 h3
    rcases List.mem_append.mp h3 with h3 | h3
    · exact h.from_regs q h1 h2 h3
    · simp only [List.mem_singleton] at h3
      obtain ⟨v, hv⟩ := hx.head
      exact absurd rfl (h1 36 (by rw [h3, hv]; simp)).1
  to_regs := by intro q hq; exact List.mem_append_left _ (h.to_regs q hq)
  alph := h.alph
  plain := h.plain

theorem Core.base {c : Compiler} {known : List Bytes} (h : Core c known) {x : Bytes} (hx : x ∈ baseSymbols) :
    Core (c.register x) known where
  regs := by
    intro r hr
    rcases List.mem_append.mp hr with hr | hr
    · exact h.regs r hr
    · simp only [List.mem_singleton] at hr
      have : ∀ x ∈ baseSymbols, ∀ b ∈ x, b ≠ 36 ∧ b ≠ 0 ∧ b ≠ 255 := by decide
      have hp : Plain x := this x hx
      rw [hr]; exact ⟨hp.ok, .inl hp⟩
  from_regs := by
    intro q h1 h2 h3
    rcases List.mem_append.mp h3 with h3 | h3
    · exact h.from_regs q h1 h2 h3
    · simp only [List.mem_singleton] at h3
      rw [h3]; exact List.mem_append_right _ hx
  to_regs := by intro q hq; exact List.mem_append_left _ (h.to_regs q hq)
  alph := h.alph
  plain := h.plain

theorem Core.same {c c' : Compiler} {known : List Bytes} (h : Core c known) (h1 : c'.regs = c.regs) (h2 : c'.alphabets = c.alphabets) :
    Core c' known where
  regs := by rw [h1]; exact h.regs
  from_regs := by rw [h1]; exact h.from_regs
  to_regs := by rw [h1]; exact h.to_regs
  alph := by rw [h2]; exact h.alph
  plain := h.plain

theorem Core.add {c : Compiler} {known : List Bytes} (h : Core c known) {x : Bytes} (hx : x ≠ [] ∧ Plain x) :
    Core (c.addAlphabet x) (known ++ [x]) where
  regs := by
    intro r hr
    rcases List.mem_append.mp hr with hr | hr
    · exact h.regs r hr
    · simp only [List.mem_singleton] at hr
      rw [hr]; exact ⟨hx.2.ok, .inl hx.2⟩
  from_regs := by
    intro q h1 h2 h3
    rcases List.mem_append.mp h3 with h3 | h3
    · have := h.from_regs q h1 h2 h3
      simp only [List.mem_append] at this ⊢
      rcases this with h | h
      · exact .inl (.inl h)
      · exact .inr h
    · simp only [List.mem_singleton] at h3
      rw [h3]; simp
  to_regs := by
    intro q hq
    simp only [List.mem_append] at hq
    rcases hq with (hq | hq) | hq
    · exact List.mem_append_left _ (h.to_regs q (by simp [hq]))
    · exact List.mem_append_right _ hq
    · exact List.mem_append_left _ (h.to_regs q (by simp [hq]))
  alph := by
    intro q
    show q ∈ setInsert c.alphabets x ↔ _
    rw [Hfst.Basic.mem_setInsert, h.alph, List.mem_append, List.mem_singleton]
    exact or_comm
  plain := by
    intro q hq
    rcases List.mem_append.mp hq with hq | hq
    · exact h.plain q hq
    · simp only [List.mem_singleton] at hq; rw [hq]; exact hx

theorem ext_register (cfg : Config) (c : Compiler) (x : Bytes) : Ext cfg c (c.register x) :=
  ⟨rfl, rfl, rfl, rfl, rfl, rfl, fun _ h => List.mem_append_left _ h, fun _ h => h⟩

theorem ext_add (cfg : Config) (c : Compiler) (x : Bytes) : Ext cfg c (c.addAlphabet x) :=
  ⟨rfl, rfl, rfl, rfl, rfl, rfl, fun _ h => List.mem_append_left _ h, fun _ h => h⟩

theorem unicode_step {cfg : Config} {c : Compiler} {known : List Bytes} (h : Core c known) (t : Bytes)
    (hp : ∀ q ∈ clustersOf cfg t, q ≠ [] ∧ Plain q) :
    Core (c.unicodeCheck cfg t) (known ++ clustersOf cfg t) ∧ Ext cfg c (c.unicodeCheck cfg t) := by
  unfold Compiler.unicodeCheck clustersOf at *
  split
  · simp only [List.append_nil]
    exact ⟨h, Ext.refl _ _⟩
  · rename_i hs
    rw [if_neg hs] at hp
    generalize cfg.clusters t = gs at hp
    induction gs generalizing c known with
    | nil => simp only [List.append_nil, List.foldl_nil]; exact ⟨h, Ext.refl _ _⟩
    | cons x gs ih =>
      rw [List.foldl_cons]
      by_cases hx : x ∈ c.alphabets
      · rw [if_pos hx]
        obtain ⟨h1, h2⟩ := ih h (fun q hq => hp q (by simp [hq]))
        refine ⟨h1.congr ?_, h2⟩
        intro q
        have hx' := (h.alph x).mp hx
        simp only [List.mem_append, List.mem_cons]
        constructor
        · rintro (h | h)
          · exact .inl h
          · exact .inr (.inr h)
        · rintro (h | rfl | h)
          · exact .inl h
          · exact .inl hx'
          · exact .inr h
      · rw [if_neg hx]
        have hc : Core { c with errors := c.errors || cfg.werror } known := h.same rfl rfl
        obtain ⟨h1, h2⟩ := ih (hc.add (hp x (by simp))) (fun q hq => hp q (by simp [hq]))
        refine ⟨by simpa using h1, Ext.trans (Ext.trans ?_ (ext_add cfg _ x)) h2⟩
        exact ⟨rfl, rfl, rfl, rfl, rfl, rfl, fun _ h => h, fun hw he => by simp [hw, he]⟩

theorem agree_of {c : Compiler} {known : List Bytes} (h : Core c known) (h0 : lit "0" ∈ c.regs) : Agree c.regs known := by
  intro q h1 h2
  constructor
  · exact h.from_regs q h1 h2
  · intro hq
    rcases List.mem_append.mp hq with hq | hq
    · exact h.to_regs q (by simp [hq])
    · simp only [baseSymbols, List.mem_cons, List.not_mem_nil, or_false] at hq
      rcases hq with rfl | rfl | rfl | rfl | rfl
      · exact h.to_regs _ (by simp [baseRegs])
      · exact h.to_regs _ (by simp [baseRegs])
      · exact h.to_regs _ (by simp [baseRegs])
      · exact h.to_regs _ (by simp [baseRegs])
      · exact h0

theorem prepare_step {cfg : Config} {c : Compiler} {known : List Bytes} (h : Core c known) {cont : Bytes} (hk : NameOk cont)
    (hc : NameOk c.current) : Core (c.prepare cont) known ∧ Ext cfg c (c.prepare cont) ∧ Agree (c.prepare cont).regs known ∧
      joiner cont ∈ (c.prepare cont).regs ∧ joiner c.current ∈ (c.prepare cont).regs := by
  have h1 : Core (c.prepare cont) known := by
    have h0 : Core { c with conts := setInsert c.conts cont } known := h.same rfl rfl
    exact (((h0.internal (joiner_atom hk).internal (joiner_ok hk)).internal (joiner_atom hc).internal (joiner_ok hc)).base
      (x := lit "0") (by decide)).base (x := lit "@ZERO@") (by decide)
  refine ⟨h1, ?_, agree_of h1 ?_, ?_, ?_⟩
  · refine ⟨rfl, rfl, rfl, rfl, rfl, rfl, ?_, fun _ h => h⟩
    intro q hq
    simp [Compiler.prepare, Compiler.register, hq]
  · simp [Compiler.prepare, Compiler.register]
  · simp [Compiler.prepare, Compiler.register]
  · simp [Compiler.prepare, Compiler.register]

/-! ## Learning symbols -/

theorem learn_cases (cfg : Config) {c : Compiler} {known : List Bytes} (h : Core c known) {x : Bytes} (hx : x ≠ [] ∧ Plain x) :
    (x ∈ known ∧ c.learn cfg x = (c, false)) ∨ (x ∉ known ∧ atMarked x = true ∧ c.learn cfg x = (c, true)) ∨
    (x ∉ known ∧ atMarked x = false ∧ ∃ c', c.learn cfg x = (c', false) ∧ Core c' (known ++ [x]) ∧ Ext cfg c c') := by
  unfold Compiler.learn
  rw [marked_plain hx.2]
  by_cases h1 : x ∈ known
  · rw [if_pos ((h.alph x).mpr h1)]; exact .inl ⟨h1, rfl⟩
  · rw [if_neg (fun hm => h1 ((h.alph x).mp hm))]
    cases h2 : atMarked x with
    | true => rw [if_pos rfl]; exact .inr (.inl ⟨h1, rfl, rfl⟩)
    | false =>
      rw [if_neg (by simp)]
      refine .inr (.inr ⟨h1, rfl, _, rfl, ?_, ?_⟩)
      · exact (h.same (c' := { c with errors := c.errors || (cfg.warnMissing && cfg.werror) }) rfl rfl).add hx
      · refine Ext.trans ?_ (ext_add cfg _ x)
        exact ⟨rfl, rfl, rfl, rfl, rfl, rfl, fun _ h => h, fun hw he => by simp [hw, he]⟩

theorem learned_append (known L : List Bytes) (hL : ∀ x ∈ L, atMarked x = false) (l : List (Bytes × Bytes)) :
    learned (known ++ L) l = learned known l := by
  unfold learned
  refine flatMap_congr' ?_
  intro p _
  by_cases h : atMarked p.1 = true
  · have : p.1 ∉ L := fun hm => by rw [hL _ hm] at h; cases h
    simp [h, this]
  · simp [h]

theorem learned_unmarked (known : List Bytes) (l : List (Bytes × Bytes)) : ∀ x ∈ learned known l, atMarked x = false := by
  intro x hx
  obtain ⟨p, _, hp⟩ := List.mem_flatMap.mp hx
  split at hp
  · cases hp
  · rcases List.mem_append.mp hp with hp | hp
    · split at hp
      · cases hp
      · simp only [List.mem_singleton] at hp
        rename_i h; rw [hp]; simpa using h
    · split at hp
      · cases hp
      · simp only [List.mem_singleton] at hp
        rename_i h; rw [hp]; simpa using h

theorem learnPair_step {cfg : Config} {c : Compiler} {known : List Bytes} (h : Core c known) {p : Bytes × Bytes}
    (h1 : p.1 ≠ [] ∧ Plain p.1) (h2 : p.2 ≠ [] ∧ Plain p.2) :
    Core (c.learnPair cfg p) (known ++ learned known [p]) ∧ Ext cfg c (c.learnPair cfg p) := by
  have e : learned known [p] = (if atMarked p.1 ∧ p.1 ∉ known then []
    else (if atMarked p.1 then [] else [p.1]) ++ (if atMarked p.2 then [] else [p.2])) := by
    simp [learned]
  have second : ∀ (c' : Compiler) (k : List Bytes), Core c' k → Ext cfg c c' →
      Core (c'.learn cfg p.2).1 (k ++ if atMarked p.2 then [] else [p.2]) ∧ Ext cfg c (c'.learn cfg p.2).1 := by
    intro c' k hc he
    rcases learn_cases cfg hc h2 with ⟨a, b⟩ | ⟨a, b, d⟩ | ⟨a, b, c'', d, f, g⟩
    · rw [b]
      refine ⟨hc.congr ?_, he⟩
      intro q
      by_cases hm : atMarked p.2 = true
      · simp [hm]
      · simp only [hm, Bool.false_eq_true, ↓reduceIte, List.mem_append, List.mem_singleton]
        constructor
        · exact .inl
        · rintro (h | rfl)
          · exact h
          · exact a
    · rw [d]; simp only [b, ↓reduceIte, List.append_nil]; exact ⟨hc, he⟩
    · rw [d]; simp only [b, Bool.false_eq_true, ↓reduceIte]; exact ⟨f, he.trans g⟩
  unfold Compiler.learnPair
  rw [e]
  rcases learn_cases cfg h h1 with ⟨a, b⟩ | ⟨a, b, d⟩ | ⟨a, b, c'', d, f, g⟩
  · rw [b]
    simp only [Bool.false_eq_true, ↓reduceIte]
    rw [if_neg (by simp [a])]
    obtain ⟨s1, s2⟩ := second c known h (Ext.refl _ _)
    refine ⟨s1.congr ?_, s2⟩
    intro q
    simp only [List.mem_append]
    constructor
    · rintro (h | h)
      · exact .inl h
      · exact .inr (.inr h)
    · rintro (h | h | h)
      · exact .inl h
      · split at h
        · cases h
        · simp only [List.mem_singleton] at h; rw [h]; exact .inl a
      · exact .inr h
  · rw [d]
    simp only [↓reduceIte]
    rw [if_pos ⟨b, a⟩, List.append_nil]
    exact ⟨h, Ext.refl _ _⟩
  · rw [d]
    simp only [Bool.false_eq_true, ↓reduceIte]
    rw [if_neg (by simp [b]), if_neg (by simp [b])]
    obtain ⟨s1, s2⟩ := second c'' (known ++ [p.1]) f g
    rw [← List.append_assoc]
    exact ⟨s1, s2⟩

theorem learnPairs_step {cfg : Config} (v : List (Bytes × Bytes)) {c : Compiler} {known : List Bytes} (h : Core c known)
    (hv : ∀ p ∈ v, (p.1 ≠ [] ∧ Plain p.1) ∧ p.2 ≠ [] ∧ Plain p.2) :
    Core (v.foldl (Compiler.learnPair cfg) c) (known ++ learned known v) ∧ Ext cfg c (v.foldl (Compiler.learnPair cfg) c) := by
  induction v generalizing c known with
  | nil => simp only [learned, List.flatMap_nil, List.append_nil, List.foldl_nil]; exact ⟨h, Ext.refl _ _⟩
  | cons p v ih =>
    rw [List.foldl_cons]
    obtain ⟨h1, h2⟩ := learnPair_step (cfg := cfg) h (hv p (by simp)).1 (hv p (by simp)).2
    obtain ⟨h3, h4⟩ := ih h1 (fun q hq => hv q (by simp [hq]))
    refine ⟨?_, h2.trans h4⟩
    rw [learned_append _ _ (learned_unmarked _ _)] at h3
    have e : learned known (p :: v) = learned known [p] ++ learned known v := by simp [learned]
    rw [e, ← List.append_assoc]
    exact h3

theorem learnOne_eq (cfg : Config) {c : Compiler} {known : List Bytes} (h : Core c known) {x : Bytes} (hx : x ≠ [] ∧ Plain x) :
    c.learnOne cfg (x, x) = c.learnPair cfg (x, x) := by
  unfold Compiler.learnOne Compiler.learnPair
  rcases learn_cases cfg h hx with ⟨a, b⟩ | ⟨a, b, d⟩ | ⟨a, b, c'', d, f, g⟩
  · simp [b]
  · simp [d]
  · simp only [d, Bool.false_eq_true, ↓reduceIte]
    have : x ∈ c''.alphabets := (f.alph x).mpr (by simp)
    simp [Compiler.learn, this]

theorem learnOnes_eq (cfg : Config) (v : List Bytes) {c : Compiler} {known : List Bytes} (h : Core c known)
    (hv : ∀ x ∈ v, x ≠ [] ∧ Plain x) :
    (v.map fun x => (x, x)).foldl (Compiler.learnOne cfg) c = (v.map fun x => (x, x)).foldl (Compiler.learnPair cfg) c := by
  induction v generalizing c known with
  | nil => rfl
  | cons x v ih =>
    simp only [List.map_cons, List.foldl_cons]
    rw [learnOne_eq cfg h (hv x (by simp))]
    exact ih (learnPair_step (cfg := cfg) h (p := (x, x)) (hv x (by simp)) (hv x (by simp))).1 (fun y hy => hv y (by simp [hy]))

theorem learn_joiner (cfg : Config) {c : Compiler} {known : List Bytes} (h : Core c known) {n : Bytes} (hn : NameOk n) :
    c.learn cfg (joiner n) = (c, true) := by
  have : joiner n ∉ c.alphabets := by
    rw [h.alph]
    intro hm
    obtain ⟨u, _, hu⟩ := joiner_atom hn
    exact ((h.plain _ hm).2 36 (by rw [hu]; simp)).1 rfl
  simp [Compiler.learn, this, marked_joiner hn]

/-! ## Paths -/

theorem addPath_ok (c : Compiler) (v : List (Bytes × Bytes)) (w : Int) (hv : ∀ p ∈ v, p.1 ≠ [] ∧ p.2 ≠ []) :
    ∃ t, c.addPath v w = .ok { c with trie := t } ∧ c.trie.disjunct (v.map fun p => (sym p.1, sym p.2)) w = .ok t := by
  obtain ⟨t, ht⟩ := disjunct_ok c.trie (v.map fun p => (sym p.1, sym p.2)) w (by
    intro p hp
    obtain ⟨q, hq, rfl⟩ := List.mem_map.mp hp
    exact ⟨sym_ne_nil.mpr (hv q hq).1, sym_ne_nil.mpr (hv q hq).2⟩)
  exact ⟨t, by unfold Compiler.addPath; rw [ht]; rfl, ht⟩

/-- A path that stands for an entry. -/
structure Rel (e : Entry) (it : Item) : Prop where
  lex : it.lex = e.lex
  cont : it.cont = e.cont
  w : it.w = e.weight
  name : NameOk e.cont
  raw : (e.regexp = true ∧ it.raw = [keyPair e.lex e.cont]) ∨
    (e.regexp = false ∧ (∀ p ∈ it.raw, Txt0 p.1 ∧ Txt0 p.2) ∧ ∀ l v, e.lang l v ↔ l = it.body ∧ 0 ≤ v)

theorem map_sym_pairs (f : Bytes → Bytes) (l : List (Bytes × Bytes)) : (l.map fun p => (f p.1, f p.2)).map (fun p => (sym p.1, sym p.2)) =
    l.map fun p => (sym (f p.1), sym (f p.2)) := by
  rw [List.map_map]; rfl

/-- Two sides, the shorter one filled up. -/
theorem zip_pad {α : Type} (pad : α) (us ls : List α) :
    (us ++ List.replicate (ls.length - us.length) pad).zip (ls ++ List.replicate (us.length - ls.length) pad) = zipPad pad us ls := by
  induction us generalizing ls with
  | nil =>
    induction ls with
    | nil => simp [zipPad]
    | cons l ls ih => simpa [zipPad, List.replicate_succ] using ih
  | cons u us ih =>
    cases ls with
    | nil =>
      have := ih []
      simpa [zipPad, List.replicate_succ] using this
    | cons l ls =>
      have := ih ls
      simpa [zipPad] using this

theorem zipPad_map {α β : Type} (f : α → β) (pad : α) (us ls : List α) :
    zipPad (f pad) (us.map f) (ls.map f) = (zipPad pad us ls).map fun p => (f p.1, f p.2) := by
  induction us generalizing ls with
  | nil =>
    induction ls with
    | nil => simp [zipPad]
    | cons l ls ih => simpa [zipPad] using ih
  | cons u us ih =>
    cases ls with
    | nil =>
      have := ih []
      simpa [zipPad] using this
    | cons l ls =>
      have := ih ls
      simpa [zipPad] using this

theorem mem_zipPad {α : Type} {pad : α} {us ls : List α} {p : α × α} (h : p ∈ zipPad pad us ls) :
    (p.1 ∈ us ∨ p.1 = pad) ∧ (p.2 ∈ ls ∨ p.2 = pad) := by
  induction us generalizing ls with
  | nil =>
    induction ls with
    | nil => simp [zipPad] at h
    | cons l ls ih =>
      rw [zipPad] at h
      rcases List.mem_cons.mp h with rfl | h
      · simp
      · rcases ih h with ⟨h1, h2 | h2⟩
        · exact ⟨h1, .inl (by simp [h2])⟩
        · exact ⟨h1, .inr h2⟩
  | cons u us ih =>
    cases ls with
    | nil =>
      rw [zipPad] at h
      rcases List.mem_cons.mp h with rfl | h
      · simp
      · rcases ih h with ⟨h1 | h1, h2⟩
        · exact ⟨.inl (by simp [h1]), h2⟩
        · exact ⟨.inr h1, h2⟩
    | cons l ls =>
      rw [zipPad] at h
      rcases List.mem_cons.mp h with rfl | h
      · simp
      · rcases ih h with ⟨h1, h2⟩
        refine ⟨?_, ?_⟩
        · rcases h1 with h1 | h1
          · exact .inl (by simp [h1])
          · exact .inr h1
        · rcases h2 with h2 | h2
          · exact .inl (by simp [h2])
          · exact .inr h2

theorem pairUp_padded {eps : Bytes} {x y : Bytes} {us ls : List Bytes} :
    Tok.pairUp eps (x :: (us ++ List.replicate (ls.length - us.length) another ++ [y]))
      (x :: (ls ++ List.replicate (us.length - ls.length) another ++ [y])) =
      (x, x) :: (zipPad another us ls ++ [(y, y)]) := by
  have hl : (us ++ List.replicate (ls.length - us.length) another).length =
      (ls ++ List.replicate (us.length - ls.length) another).length := by
    simp; omega
  unfold Tok.pairUp
  rw [if_neg (by simp only [List.length_cons, List.length_append, List.length_nil] at hl ⊢; omega)]
  rw [List.drop_eq_nil_of_le (by simp only [List.length_cons, List.length_append, List.length_nil] at hl ⊢; omega)]
  rw [List.zip_cons_cons, List.zip_append hl, zip_pad]
  simp

end Hfst.Lexc
