import Verif.Props.LexcRun

/-!
# C71: what is compiled is what the lexicons say
-/
namespace Hfst.Lexc
open Hfst.Basic
open Hfst.Basic.Graph (init)
open Hfst.Tok (Bytes Byte Ok Cut)

/-- Where words begin when lexicons `ns` have been seen; `b` tells whether this is the first compilation. -/
def startOf (b : Bool) (ns : List Bytes) : Bytes :=
  if lit "Root" ∈ ns then lit "Root" else if b then ns.headD (lit "Root") else lit "Root"

/-- What holds of the compiler between two lines. -/
structure Inv (cfg : Config) (b hash : Bool) (c : Compiler) (known : List Bytes) (lex : Bytes) (zs : List (Entry × Item))
    (ns : List Bytes) : Prop where
  core : Core c known
  current : c.current = lex
  trie : runDisjunct init (zs.map fun z => (z.2.path, z.2.w)) = .ok c.trie
  rel : ∀ z ∈ zs, Rel z.1 z.2 ∧ joiner z.1.lex ∈ c.regs ∧ joiner z.1.cont ∈ c.regs
  hashreg : hash = true → joiner (lit "#") ∈ c.regs
  keys : ∀ e ∈ c.regexps, ∃ a b, NameOk a ∧ NameOk b ∧ e.1 = regKey a b
  graphs : ∀ k U, mapGet c.regexps k = some U → Good U ∧ Closed U ∧
    ∀ l v, Cost U l v ↔ ∃ z ∈ zs, z.1.regexp = true ∧ regKey z.1.lex z.1.cont = k ∧ z.1.lang l v
  has : ∀ z ∈ zs, z.1.regexp = true → (mapGet c.regexps (regKey z.1.lex z.1.cont)).isSome = true
  names : ∀ n, n ∈ c.names ↔ n = lit "#" ∨ n ∈ ns
  initial : c.initial = startOf b ns
  first : c.first = (b && ns.isEmpty)
  errors : cfg.werror = false → c.errors = false

theorem Inv.ext {cfg : Config} {b hash : Bool} {c c' : Compiler} {known known' : List Bytes} {lex : Bytes}
    {zs : List (Entry × Item)} {ns : List Bytes} (h : Inv cfg b hash c known lex zs ns) (he : Ext cfg c c') (hc : Core c' known') :
    Inv cfg b hash c' known' lex zs ns where
  core := hc
  current := he.current.trans h.current
  trie := by rw [he.trie]; exact h.trie
  rel := by
    intro z hz
    obtain ⟨h1, h2, h3⟩ := h.rel z hz
    exact ⟨h1, he.regs _ h2, he.regs _ h3⟩
  hashreg := fun hh => he.regs _ (h.hashreg hh)
  keys := by rw [he.regexps]; exact h.keys
  graphs := by rw [he.regexps]; exact h.graphs
  has := by rw [he.regexps]; exact h.has
  names := by rw [he.names]; exact h.names
  initial := by rw [he.initial]; exact h.initial
  first := by rw [he.first]; exact h.first
  errors := fun hw => he.errors hw (h.errors hw)

/-- Another path for an entry that is not a regular expression. -/
theorem Inv.push {cfg : Config} {b hash : Bool} {c : Compiler} {known : List Bytes} {lex : Bytes}
    {zs : List (Entry × Item)} {ns : List Bytes} (h : Inv cfg b hash c known lex zs ns) {e : Entry} {it : Item} {t : Graph}
    (hr : Rel e it) (hx : e.regexp = false) (hl : joiner e.lex ∈ c.regs) (hk : joiner e.cont ∈ c.regs)
    (ht : c.trie.disjunct it.path it.w = .ok t) : Inv cfg b hash { c with trie := t } known lex (zs ++ [(e, it)]) ns where
  core := h.core.same rfl rfl
  current := h.current
  trie := by
    rw [List.map_append]
    exact runDisjunct_append h.trie (it.path, it.w) ht
  rel := by
    intro z hz
    rcases List.mem_append.mp hz with hz | hz
    · exact h.rel z hz
    · simp only [List.mem_singleton] at hz
      subst hz
      exact ⟨hr, hl, hk⟩
  hashreg := h.hashreg
  keys := h.keys
  graphs := by
    intro k U hU
    obtain ⟨h1, h2, h3⟩ := h.graphs k U hU
    refine ⟨h1, h2, ?_⟩
    intro l v
    rw [h3]
    constructor
    · rintro ⟨z, hz, h⟩; exact ⟨z, by simp [hz], h⟩
    · rintro ⟨z, hz, h4, h5⟩
      rcases List.mem_append.mp hz with hz | hz
      · exact ⟨z, hz, h4, h5⟩
      · simp only [List.mem_singleton] at hz
        subst hz
        rw [hx] at h4; cases h4
  has := by
    intro z hz h4
    rcases List.mem_append.mp hz with hz | hz
    · exact h.has z hz h4
    · simp only [List.mem_singleton] at hz
      subst hz
      rw [hx] at h4; cases h4
  names := h.names
  initial := h.initial
  first := h.first
  errors := h.errors

theorem joiner_pair_learn (cfg : Config) {c : Compiler} {known : List Bytes} (h : Core c known) {n : Bytes} (hn : NameOk n) :
    c.learnPair cfg (joiner n, joiner n) = c ∧ c.learnOne cfg (joiner n, joiner n) = c := by
  unfold Compiler.learnPair Compiler.learnOne
  rw [learn_joiner cfg h hn]
  exact ⟨rfl, rfl⟩

theorem text_step {cfg : Config} {b hash : Bool} {c c2 : Compiler} {known k2 : List Bytes} {lex cont : Bytes}
    {zs : List (Entry × Item)} {ns : List Bytes} (h : Inv cfg b hash c known lex zs ns) (he : Ext cfg c c2) (hc : Core c2 k2)
    (hl : NameOk lex) (hk : NameOk cont) (h1 : joiner lex ∈ c2.regs) (h2 : joiner cont ∈ c2.regs) (v : List (Bytes × Bytes))
    (hv : ∀ p ∈ v, (p.1 ≠ [] ∧ Plain p.1) ∧ p.2 ≠ [] ∧ Plain p.2) (w : Int) {e : Entry}
    (hx : e.regexp = false) (hr : Rel e ⟨lex, cont, w, v.map fun p => (sym p.1, sym p.2)⟩) :
    ∃ c', (((joiner lex, joiner lex) :: (v ++ [(joiner cont, joiner cont)])).foldl (Compiler.learnPair cfg) c2).addPath
        ((joiner lex, joiner lex) :: (v ++ [(joiner cont, joiner cont)])) w = .ok c' ∧
      Inv cfg b hash c' (k2 ++ learned k2 v) lex (zs ++ [(e, ⟨lex, cont, w, v.map fun p => (sym p.1, sym p.2)⟩)]) ns := by
  obtain ⟨s1, s2⟩ := learnPairs_step (cfg := cfg) v hc hv
  have e1 : ((joiner lex, joiner lex) :: (v ++ [(joiner cont, joiner cont)])).foldl (Compiler.learnPair cfg) c2 =
      v.foldl (Compiler.learnPair cfg) c2 := by
    rw [List.foldl_cons, (joiner_pair_learn cfg hc hl).1, List.foldl_append, List.foldl_cons, List.foldl_nil,
      (joiner_pair_learn cfg s1 hk).1]
  rw [e1]
  obtain ⟨t, t1, t2⟩ := addPath_ok (v.foldl (Compiler.learnPair cfg) c2)
    ((joiner lex, joiner lex) :: (v ++ [(joiner cont, joiner cont)])) w (by
      intro p hp
      simp only [List.mem_cons, List.mem_append, List.not_mem_nil, or_false] at hp
      rcases hp with rfl | hp | rfl
      · exact ⟨(joiner_atom hl).ne_nil, (joiner_atom hl).ne_nil⟩
      · exact ⟨(hv p hp).1.1, (hv p hp).2.1⟩
      · exact ⟨(joiner_atom hk).ne_nil, (joiner_atom hk).ne_nil⟩)
  refine ⟨_, t1, ((h.ext (he.trans s2) s1).push hr hx ?_ ?_ ?_)⟩
  · rw [← hr.lex]; exact s2.regs _ h1
  · rw [← hr.cont]; exact s2.regs _ h2
  · rw [← t2]
    simp [Item.path, J]

theorem reads_mono {cfg : Config} {so : Graph → List Sym} {known : List Bytes} {lex : Bytes} {calls : List Call} {es : List Entry}
    {known' : List Bytes} (h : Reads cfg so known lex calls es known') : ∀ q ∈ known, q ∈ known' := by
  induction h with
  | nil => exact fun q h => h
  | noFlag _ ih => exact ih
  | multichar _ ih => exact fun q hq => ih q (by simp [hq])
  | lexicon _ ih => exact ih
  | string _ _ ih => exact fun q hq => ih q (by simp [hq])
  | pair _ _ _ ih => exact fun q hq => ih q (by simp [hq])
  | regexp _ _ ih => exact fun q hq => ih q (by simp [hq])

theorem Apart.mono {cfg : Config} {k k' : List Bytes} {t : Bytes} (h : Apart cfg k t) (hk : ∀ q ∈ k', q ∈ k) : Apart cfg k' t :=
  ⟨fun r c h1 h2 q hq h3 => h.symbols r c h1 h2 q (hk q hq) h3, h.chars⟩

theorem cut_tokens {syms : List Bytes} {cs : Bytes → Nat} {s : Bytes} {ps : List Bytes} (h : Cut syms cs s ps) (hp : Plain s) :
    ∀ t ∈ ps, t ≠ [] ∧ Plain t := by
  obtain ⟨h1, h2⟩ := h.lossless
  intro t ht
  refine ⟨h2 t ht, ?_⟩
  intro x hx
  refine hp x ?_
  rw [← h1]
  exact List.mem_flatten.mpr ⟨t, ht, hx⟩

/-- The condition on written symbols. -/
def Written (x : Sym) : Prop := x = epsilon ∨ ¬ sym (lit "@_") <+: x ∧ ¬ sym (lit "@@ANOTHER_EPSILON@@") <+: x

theorem string_step {cfg : Config} {b hash : Bool} {c : Compiler} {known : List Bytes} {lex cont data : Bytes} {w : Int}
    {toks : List Bytes} {zs : List (Entry × Item)} {ns : List Bytes} (h : Inv cfg b hash c known lex zs ns)
    (hp : ∀ q ∈ clustersOf cfg data, q ≠ [] ∧ Plain q) (hl : NameOk lex) (hk : NameOk cont) (ht : TextOk cfg data)
    (hcut : Cut (known ++ clustersOf cfg data ++ baseSymbols) (Tok.charSize cfg.grapheme cfg.split) data toks)
    (hs : ∀ t ∈ toks, Written (symbol t)) :
    ∃ c' it, c.addStringEntry cfg data cont w = .ok c' ∧
      Inv cfg b hash c' (known ++ clustersOf cfg data ++
        learned (known ++ clustersOf cfg data) (toks.map fun t => (spelled t, spelled t))) lex
        (zs ++ [({ lex := lex, cont := cont, weight := w, regexp := false, symbols := toks.map symbol,
                   lang := fun l v => l = strip (toks.map fun t => (symbol t, symbol t)) ∧ 0 ≤ v }, it)]) ns := by
  obtain ⟨u1, u2⟩ := unicode_step h.core data hp
  have hcur : (c.unicodeCheck cfg data).current = lex := u2.current.trans h.current
  obtain ⟨p1, p2, p3, p4, p5⟩ := prepare_step (cfg := cfg) u1 hk (by rw [hcur]; exact hl)
  have hcur2 : ((c.unicodeCheck cfg data).prepare cont).current = lex := p2.current.trans hcur
  rw [hcur] at p5
  have htok := tokens_string p1.regs p3 (fun q hq => (p1.plain q hq).1) ht hcut (joiner_atom hl) (joiner_atom hk)
    (joiner_ok hl) (joiner_ok hk) p5 p4
  have hplain := cut_tokens hcut ht.plain
  have hrel : Rel
      { lex := lex, cont := cont, weight := w, regexp := false, symbols := toks.map symbol,
        lang := fun l v => l = strip (toks.map fun t => (symbol t, symbol t)) ∧ 0 ≤ v }
      ⟨lex, cont, w, (toks.map fun t => (spelled t, spelled t)).map fun p => (sym p.1, sym p.2)⟩ := by
    refine ⟨rfl, rfl, rfl, hk, .inr ⟨rfl, ?_, ?_⟩⟩
    · intro p hp
      simp only [List.map_map, List.mem_map, Function.comp_apply] at hp
      obtain ⟨t, ht, rfl⟩ := hp
      have := spelled_txt (hplain t ht).2 (hplain t ht).1 (hs t ht)
      exact ⟨this, this⟩
    · intro l v
      have e : (((toks.map fun t => (spelled t, spelled t)).map fun p => (sym p.1, sym p.2)).map (ren smallSubstitutions)) =
          toks.map fun t => (symbol t, symbol t) := by
        rw [List.map_map, List.map_map]
        refine List.map_congr_left ?_
        intro t _
        simp only [Function.comp_apply, ren, ren_spelled]
      simp only [Item.body, e]
  obtain ⟨c', e1, e2⟩ := text_step h (u2.trans p2) p1 hl hk p5 p4 (toks.map fun t => (spelled t, spelled t)) (by
      intro p hp
      obtain ⟨t, ht, rfl⟩ := List.mem_map.mp hp
      have := And.intro (spelled_ne_nil (hplain t ht).1) (spelled_plain (hplain t ht).2)
      exact ⟨this, this⟩) w rfl hrel
  refine ⟨c', _, ?_, e2⟩
  unfold Compiler.addStringEntry
  simp only [hcur2, htok, Outcome.bind]
  rw [← e1]
  have ev : (joiner lex :: (toks ++ [joiner cont])).map (fun x => (zeroes x, zeroes x)) =
      (joiner lex, joiner lex) :: ((toks.map fun t => (spelled t, spelled t)) ++ [(joiner cont, joiner cont)]) := by
    have z1 := zeroes_joiner hl
    have z2 := zeroes_joiner hk
    rw [zeroes_eq] at z1 z2
    simp [z1, z2, zeroes_eq]
  rw [ev]
  congr 1
  rw [List.foldl_cons, List.foldl_cons, (joiner_pair_learn cfg p1 hl).1, (joiner_pair_learn cfg p1 hl).2, List.foldl_append,
    List.foldl_append]
  have e3 := learnOnes_eq cfg (toks.map spelled) p1 (by
    intro x hx
    obtain ⟨t, ht, rfl⟩ := List.mem_map.mp hx
    exact ⟨spelled_ne_nil (hplain t ht).1, spelled_plain (hplain t ht).2⟩)
  rw [List.map_map] at e3
  have e4 : (toks.map fun t => (spelled t, spelled t)) = toks.map ((fun x => (x, x)) ∘ spelled) := rfl
  obtain ⟨s1, _⟩ := learnPairs_step (cfg := cfg) (toks.map fun t => (spelled t, spelled t)) p1 (by
      intro p hp
      obtain ⟨t, ht, rfl⟩ := List.mem_map.mp hp
      have := And.intro (spelled_ne_nil (hplain t ht).1) (spelled_plain (hplain t ht).2)
      exact ⟨this, this⟩)
  rw [e4] at s1 ⊢
  rw [e3]
  rw [List.foldl_cons, List.foldl_nil, List.foldl_cons, List.foldl_nil, (joiner_pair_learn cfg s1 hk).1,
    (joiner_pair_learn cfg s1 hk).2]

theorem symbol_another : symbol another = epsilon := by decide

theorem pair_step {cfg : Config} {b hash : Bool} {c : Compiler} {known : List Bytes} {lex cont up lo : Bytes} {w : Int}
    {us ls : List Bytes} {zs : List (Entry × Item)} {ns : List Bytes} (h : Inv cfg b hash c known lex zs ns)
    (hp : ∀ q ∈ clustersOf cfg up ++ clustersOf cfg lo, q ≠ [] ∧ Plain q)
    (han : ∀ q ∈ known ++ clustersOf cfg up ++ clustersOf cfg lo, another <+: q → q = another)
    (hl : NameOk lex) (hk : NameOk cont) (hu : TextOk cfg up) (ho : TextOk cfg lo)
    (au : Apart cfg (known ++ clustersOf cfg up ++ clustersOf cfg lo ++ baseSymbols) up)
    (ao : Apart cfg (known ++ clustersOf cfg up ++ clustersOf cfg lo ++ baseSymbols) lo)
    (hcu : Cut (known ++ clustersOf cfg up ++ clustersOf cfg lo ++ baseSymbols) (Tok.charSize cfg.grapheme cfg.split) up us)
    (hcl : Cut (known ++ clustersOf cfg up ++ clustersOf cfg lo ++ baseSymbols) (Tok.charSize cfg.grapheme cfg.split) lo ls)
    (hs : ∀ t ∈ us ++ ls, Written (symbol t)) :
    ∃ c' it, c.addStringPairEntry cfg up lo cont w = .ok c' ∧
      Inv cfg b hash c' (known ++ clustersOf cfg up ++ clustersOf cfg lo ++
        learned (known ++ clustersOf cfg up ++ clustersOf cfg lo)
          ((zipPad (lit "@@ANOTHER_EPSILON@@") us ls).map fun p => (spelled p.1, spelled p.2))) lex
        (zs ++ [({ lex := lex, cont := cont, weight := w, regexp := false, symbols := us.map symbol ++ ls.map symbol,
                   lang := fun l v => l = strip (zipPad epsilon (us.map symbol) (ls.map symbol)) ∧ 0 ≤ v }, it)]) ns := by
  obtain ⟨u1, u2⟩ := unicode_step (cfg := cfg) h.core up (fun q hq => hp q (by simp [hq]))
  obtain ⟨u3, u4⟩ := unicode_step (cfg := cfg) u1 lo (fun q hq => hp q (by simp [hq]))
  have hcur : ((c.unicodeCheck cfg up).unicodeCheck cfg lo).current = lex := u4.current.trans (u2.current.trans h.current)
  obtain ⟨p1, p2, p3, p4, p5⟩ := prepare_step (cfg := cfg) u3 hk (by rw [hcur]; exact hl)
  have hcur2 : (((c.unicodeCheck cfg up).unicodeCheck cfg lo).prepare cont).current = lex := p2.current.trans hcur
  rw [hcur] at p5
  have hne : ∀ q ∈ known ++ clustersOf cfg up ++ clustersOf cfg lo, q ≠ [] := fun q hq => (p1.plain q hq).1
  have t1 := tokens_plain p1.regs p3 hne hu.plain hcu
  have t2 := tokens_plain p1.regs p3 hne ho.plain hcl
  have t3 := tokens_padded p1.regs p3 (fun q hq => ⟨hne q hq, han q hq⟩) hu au hcu (joiner_atom hl) (joiner_atom hk)
    (joiner_ok hl) (joiner_ok hk) p5 p4 (ls.length - us.length)
  have t4 := tokens_padded p1.regs p3 (fun q hq => ⟨hne q hq, han q hq⟩) ho ao hcl (joiner_atom hl) (joiner_atom hk)
    (joiner_ok hl) (joiner_ok hk) p5 p4 (us.length - ls.length)
  have pu := cut_tokens hcu hu.plain
  have pl := cut_tokens hcl ho.plain
  have hother : another ≠ [] ∧ Plain another := by
    refine ⟨by decide, ?_⟩
    have : ∀ b ∈ another, b ≠ 36 ∧ b ≠ 0 ∧ b ≠ 255 := by decide
    exact this
  have hside : ∀ p ∈ zipPad another us ls, (p.1 ≠ [] ∧ Plain p.1 ∧ Written (symbol p.1)) ∧
      (p.2 ≠ [] ∧ Plain p.2 ∧ Written (symbol p.2)) := by
    intro p hp
    obtain ⟨h1, h2⟩ := mem_zipPad hp
    constructor
    · rcases h1 with h1 | h1
      · exact ⟨(pu _ h1).1, (pu _ h1).2, hs _ (by simp [h1])⟩
      · rw [h1]; exact ⟨hother.1, hother.2, .inl symbol_another⟩
    · rcases h2 with h2 | h2
      · exact ⟨(pl _ h2).1, (pl _ h2).2, hs _ (by simp [h2])⟩
      · rw [h2]; exact ⟨hother.1, hother.2, .inl symbol_another⟩
  have hrel : Rel
      { lex := lex, cont := cont, weight := w, regexp := false, symbols := us.map symbol ++ ls.map symbol,
        lang := fun l v => l = strip (zipPad epsilon (us.map symbol) (ls.map symbol)) ∧ 0 ≤ v }
      ⟨lex, cont, w, ((zipPad another us ls).map fun p => (spelled p.1, spelled p.2)).map fun p => (sym p.1, sym p.2)⟩ := by
    refine ⟨rfl, rfl, rfl, hk, .inr ⟨rfl, ?_, ?_⟩⟩
    · intro p hp
      simp only [List.map_map, List.mem_map, Function.comp_apply] at hp
      obtain ⟨t, ht, rfl⟩ := hp
      obtain ⟨⟨a1, a2, a3⟩, b1, b2, b3⟩ := hside t ht
      exact ⟨spelled_txt a2 a1 a3, spelled_txt b2 b1 b3⟩
    · intro l v
      have e : ((((zipPad another us ls).map fun p => (spelled p.1, spelled p.2)).map fun p => (sym p.1, sym p.2)).map
          (ren smallSubstitutions)) = zipPad epsilon (us.map symbol) (ls.map symbol) := by
        rw [List.map_map, List.map_map, ← symbol_another, zipPad_map]
        refine List.map_congr_left ?_
        intro t _
        simp only [Function.comp_apply, ren, ren_spelled]
      simp only [Item.body, e]
  obtain ⟨c', e1, e2⟩ := text_step h ((u2.trans u4).trans p2) p1 hl hk p5 p4
    ((zipPad another us ls).map fun p => (spelled p.1, spelled p.2)) (by
      intro p hp
      obtain ⟨t, ht, rfl⟩ := List.mem_map.mp hp
      obtain ⟨⟨a1, a2, a3⟩, b1, b2, b3⟩ := hside t ht
      exact ⟨⟨spelled_ne_nil a1, spelled_plain a2⟩, spelled_ne_nil b1, spelled_plain b2⟩) w rfl hrel
  refine ⟨c', _, ?_, e2⟩
  unfold Compiler.addStringPairEntry
  simp only [hcur2, t1, t2, t3, t4, Outcome.bind]
  rw [← e1, pairUp_padded]
  have ev : ((joiner lex, joiner lex) :: (zipPad another us ls ++ [(joiner cont, joiner cont)])).map
      (fun p => (zeroes p.1, zeroes p.2)) =
      (joiner lex, joiner lex) :: (((zipPad another us ls).map fun p => (spelled p.1, spelled p.2)) ++ [(joiner cont, joiner cont)]) := by
    have z1 := zeroes_joiner hl
    have z2 := zeroes_joiner hk
    rw [zeroes_eq] at z1 z2
    simp [z1, z2, zeroes_eq]
  rw [ev]

/-! ## Regular expressions -/

theorem learnRegexp_step {cfg : Config} (xs : List Sym) {c : Compiler} {known : List Bytes} (h : Core c known)
    (hx : ∀ q ∈ (xs.filter fun x => x ∉ [epsilon, unknown, identity]).map bytes, q ≠ [] ∧ Plain q) :
    Core (xs.foldl (Compiler.learnRegexp cfg) c) (known ++ (xs.filter fun x => x ∉ [epsilon, unknown, identity]).map bytes) ∧
      Ext cfg c (xs.foldl (Compiler.learnRegexp cfg) c) := by
  induction xs generalizing c known with
  | nil => simp only [List.filter_nil, List.map_nil, List.append_nil, List.foldl_nil]; exact ⟨h, Ext.refl _ _⟩
  | cons x xs ih =>
    rw [List.foldl_cons]
    by_cases hs : x ∈ [epsilon, unknown, identity]
    · have e : (x :: xs).filter (fun x => x ∉ [epsilon, unknown, identity]) = xs.filter fun x => x ∉ [epsilon, unknown, identity] := by
        rw [List.filter_cons_of_neg (p := fun x => decide (x ∉ [epsilon, unknown, identity])) (by
          simp only [decide_eq_true_eq, not_not]; exact hs)]
      rw [e] at hx ⊢
      have e2 : c.learnRegexp cfg x = c := by
        unfold Compiler.learnRegexp
        split
        · rfl
        · rw [if_pos (by simpa using hs)]
      rw [e2]
      exact ih h hx
    · have e : (x :: xs).filter (fun x => x ∉ [epsilon, unknown, identity]) =
          x :: xs.filter fun x => x ∉ [epsilon, unknown, identity] := by
        rw [List.filter_cons_of_pos (p := fun x => decide (x ∉ [epsilon, unknown, identity])) (by simpa using hs)]
      rw [e, List.map_cons] at hx ⊢
      by_cases hm : bytes x ∈ c.alphabets
      · have e2 : c.learnRegexp cfg x = c := by
          unfold Compiler.learnRegexp
          rw [if_pos hm]
        rw [e2]
        obtain ⟨h1, h2⟩ := ih h (fun q hq => hx q (List.mem_cons_of_mem _ hq))
        refine ⟨h1.congr ?_, h2⟩
        intro q
        have hm' := (h.alph _).mp hm
        simp only [List.mem_append, List.mem_cons]
        constructor
        · rintro (h | h)
          · exact .inl h
          · exact .inr (.inr h)
        · rintro (h | rfl | h)
          · exact .inl h
          · exact .inl hm'
          · exact .inr h
      · have e2 : ∃ er, c.learnRegexp cfg x = ({ c with errors := c.errors || (cfg.warnMissing && cfg.werror && er) }).addAlphabet (bytes x) := by
          unfold Compiler.learnRegexp
          rw [if_neg hm, if_neg (by simpa using hs)]
          exact ⟨_, rfl⟩
        obtain ⟨er, e2⟩ := e2
        rw [e2]
        have hc : Core { c with errors := c.errors || (cfg.warnMissing && cfg.werror && er) } known := h.same rfl rfl
        obtain ⟨h1, h2⟩ := ih (hc.add (hx (bytes x) (by simp))) (fun q hq => hx q (List.mem_cons_of_mem _ hq))
        refine ⟨by simpa using h1, Ext.trans (Ext.trans ?_ (ext_add cfg _ (bytes x))) h2⟩
        exact ⟨rfl, rfl, rfl, rfl, rfl, rfl, fun _ h => h, fun hw he => by simp [hw, he]⟩

theorem closed_of_labels {g g' : Graph} (h : Closed g) (hl : ∀ p, HasLabel g' p → HasLabel g p ∨ p = (epsilon, epsilon)) : Closed g' := by
  intro p hp
  rcases hl p hp with h1 | rfl
  · exact h p h1
  · decide

theorem init_closed : Closed init := fun p hp => absurd hp (init_labels p)

theorem regexp_step {cfg : Config} {B : Backend} (hB : B.Ok) {b hash : Bool} {c : Compiler} {known : List Bytes}
    {lex cont re : Bytes} {w : Int} {g : Graph} {zs : List (Entry × Item)} {ns : List Bytes} (h : Inv cfg b hash c known lex zs ns)
    (hg : cfg.xre re = some g) (hgood : Good g) (hclosed : Closed g)
    (hp : ∀ q ∈ ((B.optimize g).alphabet.filter fun x => x ∉ [epsilon, unknown, identity]).map bytes, q ≠ [] ∧ Plain q)
    (hl : NameOk lex) (hk : NameOk cont) :
    ∃ c' it, c.addXreEntry cfg B re cont w = .ok c' ∧
      Inv cfg b hash c' (known ++ ((B.optimize g).alphabet.filter fun x => x ∉ [epsilon, unknown, identity]).map bytes) lex
        (zs ++ [({ lex := lex, cont := cont, weight := w, regexp := true, symbols := [], lang := Cost g }, it)]) ns := by
  have hc0 : Core { c with conts := setInsert c.conts cont } known := h.core.same rfl rfl
  have hc1 := hc0.internal (joiner_atom hk).internal (joiner_ok hk)
  have he1 : Ext cfg c ({ c with conts := setInsert c.conts cont }.register (joiner cont)) :=
    ⟨rfl, rfl, rfl, rfl, rfl, rfl, fun _ h => List.mem_append_left _ h, fun _ h => h⟩
  have hm1 : joiner cont ∈ ({ c with conts := setInsert c.conts cont }.register (joiner cont)).regs := by
    simp [Compiler.register]
  generalize hd1 : ({ c with conts := setInsert c.conts cont }.register (joiner cont)) = c1 at hc1 he1 hm1
  obtain ⟨hc2, he2⟩ := learnRegexp_step (cfg := cfg) (B.optimize g).alphabet hc1 hp
  have hm2 := he2.regs _ hm1
  generalize hd2 : (B.optimize g).alphabet.foldl (Compiler.learnRegexp cfg) c1 = c2 at hc2 he2 hm2
  have hcur2 : c2.current = lex := he2.current.trans (he1.current.trans h.current)
  have hreg2 : c2.regexps = c.regexps := he2.regexps.trans he1.regexps
  have hc3 := hc2.internal (regKey_atom hl hk).internal (regKey_ok hl hk)
  have hc4 := hc3.internal (joiner_atom hl).internal (joiner_ok hl)
  have hog := hB.optimize_good _ hgood
  have hoc : Closed (B.optimize g) := closed_of_labels hclosed (hB.optimize_labels _ hgood)
  have hold : ∃ old, (mapGet c.regexps (regKey lex cont)).getD init = old ∧ Good old ∧ Closed old ∧
      ∀ l v, Cost old l v ↔ ∃ z ∈ zs, z.1.regexp = true ∧ regKey z.1.lex z.1.cont = regKey lex cont ∧ z.1.lang l v := by
    cases hm : mapGet c.regexps (regKey lex cont) with
    | some U => exact ⟨U, rfl, h.graphs _ U hm⟩
    | none =>
      refine ⟨init, rfl, init_good, init_closed, ?_⟩
      intro l v
      constructor
      · intro hc; exact absurd hc (init_cost l v)
      · rintro ⟨z, hz, h1, h2, _⟩
        have := h.has z hz h1
        rw [h2, hm] at this; cases this
  obtain ⟨old, ho1, ho2, ho3, ho4⟩ := hold
  have hug := hB.disjunct_good _ _ ho2 hog
  have huc : Closed (B.disjunct old (B.optimize g)) := by
    intro p hp
    rcases hB.disjunct_labels _ _ ho2 hog ho3 hoc p hp with h | h | rfl
    · exact ho3 p h
    · exact hoc p h
    · decide
  have hug' := hB.optimize_good _ hug
  have huc' : Closed (B.optimize (B.disjunct old (B.optimize g))) := closed_of_labels huc (hB.optimize_labels _ hug)
  have hucost : ∀ l v, Cost (B.optimize (B.disjunct old (B.optimize g))) l v ↔ Cost old l v ∨ Cost g l v := by
    intro l v
    rw [hB.optimize_cost _ hug, hB.disjunct_cost _ _ ho2 hog ho3 hoc, hB.optimize_cost _ hgood]
  generalize hU : B.optimize (B.disjunct old (B.optimize g)) = U at hug' huc' hucost
  let c5 : Compiler := ({ c2.register (regKey lex cont) with regexps := mapPut c.regexps (regKey lex cont) U }).register (joiner lex)
  have hc5 : Core c5 (known ++ ((B.optimize g).alphabet.filter fun x => x ∉ [epsilon, unknown, identity]).map bytes) := hc4.same rfl rfl
  have hr5 : ∀ q ∈ c2.regs, q ∈ c5.regs := fun q hq => List.mem_append_left _ (List.mem_append_left _ hq)
  have hml : joiner lex ∈ c5.regs := by simp [c5, Compiler.register]
  have hmk : regKey lex cont ∈ c5.regs := by simp [c5, Compiler.register]
  have htok := tokens_atoms (cfg := cfg) hc5.regs false [joiner lex, regKey lex cont, joiner cont] (by
    intro x hx
    simp only [List.mem_cons, List.not_mem_nil, or_false] at hx
    rcases hx with rfl | rfl | rfl
    · exact ⟨joiner_atom hl, joiner_ok hl, hml⟩
    · exact ⟨regKey_atom hl hk, regKey_ok hl hk, hmk⟩
    · exact ⟨joiner_atom hk, joiner_ok hk, hr5 _ hm2⟩)
  have hfl : [joiner lex, regKey lex cont, joiner cont].flatten = joiner lex ++ regKey lex cont ++ joiner cont := by simp
  rw [hfl] at htok
  obtain ⟨t, t1, t2⟩ := addPath_ok c5 ([joiner lex, regKey lex cont, joiner cont].map fun x => (x, x)) w (by
    intro p hp
    simp only [List.map_cons, List.map_nil, List.mem_cons, List.not_mem_nil, or_false] at hp
    rcases hp with rfl | rfl | rfl
    · exact ⟨(joiner_atom hl).ne_nil, (joiner_atom hl).ne_nil⟩
    · exact ⟨(regKey_atom hl hk).ne_nil, (regKey_atom hl hk).ne_nil⟩
    · exact ⟨(joiner_atom hk).ne_nil, (joiner_atom hk).ne_nil⟩)
  refine ⟨{ c5 with trie := t }, ⟨lex, cont, w, [keyPair lex cont]⟩, ?_, ?_⟩
  · unfold Compiler.addXreEntry
    simp only [hg, hd1, hd2]
    simp only [Compiler.register, hcur2, hreg2]
    rw [ho1, hU]
    have e5 : c5.regs = c2.regs ++ [regKey lex cont] ++ [joiner lex] := rfl
    rw [e5] at htok
    rw [htok]
    show Compiler.addPath _ _ w = _
    rw [← t1]
    congr 1
    simp only [c5, Compiler.register, hcur2]
  · have hext : Ext cfg c { c5 with regexps := c.regexps } :=
      ⟨he2.trie.trans he1.trie, rfl, he2.names.trans he1.names, he2.current.trans he1.current, he2.initial.trans he1.initial,
        he2.first.trans he1.first, fun q hq => hr5 q (he2.regs q (he1.regs q hq)),
        fun hw he => he2.errors hw (he1.errors hw he)⟩
    have hi := h.ext hext (hc5.same rfl rfl)
    have hput : ∀ k, mapGet c5.regexps k = if k = regKey lex cont then some U else mapGet c.regexps k :=
      fun k => mapGet_put _ _ _ _
    refine ⟨hc5.same rfl rfl, hi.current, ?_, ?_, hi.hashreg, ?_, ?_, ?_, hi.names, hi.initial, hi.first, hi.errors⟩
    · rw [List.map_append]
      refine runDisjunct_append hi.trie (_, w) ?_
      exact t2
    · intro z hz
      rcases List.mem_append.mp hz with hz | hz
      · exact hi.rel z hz
      · simp only [List.mem_singleton] at hz
        subst hz
        exact ⟨⟨rfl, rfl, rfl, hk, .inl ⟨rfl, rfl⟩⟩, hml, hr5 _ hm2⟩
    · intro e he
      rcases List.mem_cons.mp he with rfl | he
      · exact ⟨lex, cont, hl, hk, rfl⟩
      · exact h.keys e (List.mem_of_mem_filter he)
    · intro k V hV
      have hV' : (if k = regKey lex cont then some U else mapGet c.regexps k) = some V := by rw [← hput]; exact hV
      split at hV'
      · rename_i hk'
        subst hk'
        cases hV'
        refine ⟨hug', huc', ?_⟩
        intro l v
        rw [hucost, ho4]
        constructor
        · rintro (⟨z, hz, h1⟩ | h1)
          · exact ⟨z, by simp [hz], h1⟩
          · exact ⟨_, List.mem_append_right _ (List.mem_singleton.mpr rfl), rfl, rfl, h1⟩
        · rintro ⟨z, hz, h1⟩
          rcases List.mem_append.mp hz with hz | hz
          · exact .inl ⟨z, hz, h1⟩
          · simp only [List.mem_singleton] at hz
            subst hz
            exact .inr h1.2.2
      · rename_i hk'
        obtain ⟨g1, g2, g3⟩ := h.graphs k V hV'
        refine ⟨g1, g2, ?_⟩
        intro l v
        rw [g3]
        constructor
        · rintro ⟨z, hz, h1⟩; exact ⟨z, by simp [hz], h1⟩
        · rintro ⟨z, hz, h1, h2, h3⟩
          rcases List.mem_append.mp hz with hz | hz
          · exact ⟨z, hz, h1, h2, h3⟩
          · simp only [List.mem_singleton] at hz
            subst hz
            exact absurd h2.symm hk'
    · intro z hz h1
      show (mapGet c5.regexps _).isSome = true
      rw [hput]
      split
      · rfl
      · rename_i hne
        rcases List.mem_append.mp hz with hz | hz
        · exact h.has z hz h1
        · simp only [List.mem_singleton] at hz
          subst hz
          exact absurd rfl hne

/-! ## A new lexicon -/

theorem setCurrent_initial (cfg : Config) (c : Compiler) (n : Bytes) :
    (c.setCurrent cfg n).initial = if c.first = true ∨ n = lit "Root" then n else c.initial := by
  unfold Compiler.setCurrent Compiler.setInitial Compiler.register
  by_cases hr : n = lit "Root"
  · subst hr
    by_cases hf : lit "Root" ∈ c.noFlags <;> cases c.first <;> simp [hf]
  · by_cases hf : n ∈ c.noFlags <;> cases c.first <;> simp [hf, hr]

theorem lexicon_step {cfg : Config} {b hash : Bool} {c : Compiler} {known : List Bytes}
    {lex n : Bytes} {zs : List (Entry × Item)} {ns : List Bytes} (h : Inv cfg b hash c known lex zs ns) (hn : NameOk n) :
    Inv cfg b hash (c.setCurrent cfg n) known n zs (ns ++ [n]) := by
  have hregs : ∃ add, (∀ x ∈ add, Internal x ∧ Ok x) ∧ (c.setCurrent cfg n).regs = c.regs ++ add := by
    by_cases hf : n ∈ c.noFlags
    · refine ⟨[joiner n], ?_, ?_⟩
      · intro x hx
        simp only [List.mem_singleton] at hx
        rw [hx]; exact ⟨(joiner_atom hn).internal, joiner_ok hn⟩
      · simp only [Compiler.setCurrent, hf, if_true, Compiler.register, Compiler.setInitial]
        split_ifs <;> rfl
    · refine ⟨[flagJoiner n false, flagJoiner (flagJoiner n false) true], ?_, ?_⟩
      · intro x hx
        simp only [List.mem_cons, List.not_mem_nil, or_false] at hx
        have o1 := flagJoiner_ok hn.1.ok false
        rcases hx with rfl | rfl
        · exact ⟨flagJoiner_internal _ _, o1⟩
        · exact ⟨flagJoiner_internal _ _, flagJoiner_ok o1 true⟩
      · simp only [Compiler.setCurrent, hf, if_false, Compiler.register, Compiler.setInitial]
        split_ifs <;> simp
  obtain ⟨add, ha, hregs⟩ := hregs
  have hmono : ∀ q ∈ c.regs, q ∈ (c.setCurrent cfg n).regs := by
    intro q hq; rw [hregs]; exact List.mem_append_left _ hq
  have hcore : Core (c.setCurrent cfg n) known := by
    have : ∀ add : List Bytes, (∀ x ∈ add, Internal x ∧ Ok x) → ∀ c' : Compiler, Core c' known →
        Core { c' with regs := c'.regs ++ add } known := by
      intro add
      induction add with
      | nil => intro _ c' hc; exact hc.same (by simp) rfl
      | cons x add ih =>
        intro hx c' hc
        have := ih (fun y hy => hx y (by simp [hy])) _ (hc.internal (hx x (by simp)).1 (hx x (by simp)).2)
        exact this.same (by simp [Compiler.register]) rfl
    refine (this add ha c h.core).same hregs ?_
    unfold Compiler.setCurrent Compiler.setInitial Compiler.register
    dsimp only
    split_ifs <;> rfl
  have htrie : (c.setCurrent cfg n).trie = c.trie := by
    unfold Compiler.setCurrent Compiler.setInitial Compiler.register
    dsimp only
    split_ifs <;> rfl
  have hreg : (c.setCurrent cfg n).regexps = c.regexps := by
    unfold Compiler.setCurrent Compiler.setInitial Compiler.register
    dsimp only
    split_ifs <;> rfl
  refine ⟨hcore, ?_, ?_, ?_, fun hh => hmono _ (h.hashreg hh), ?_, ?_, ?_, ?_, ?_, ?_, ?_⟩
  · unfold Compiler.setCurrent Compiler.setInitial Compiler.register
    dsimp only
    split_ifs <;> rfl
  · rw [htrie]; exact h.trie
  · intro z hz
    obtain ⟨h1, h2, h3⟩ := h.rel z hz
    exact ⟨h1, hmono _ h2, hmono _ h3⟩
  · rw [hreg]; exact h.keys
  · rw [hreg]; exact h.graphs
  · rw [hreg]; exact h.has
  · intro m
    have : m ∈ (c.setCurrent cfg n).names ↔ m = n ∨ m ∈ c.names := by
      unfold Compiler.setCurrent Compiler.setInitial Compiler.register
      dsimp only
      split_ifs <;> simp only [Hfst.Basic.mem_setInsert] <;> tauto
    rw [this, h.names, List.mem_append, List.mem_singleton]
    tauto
  · rw [setCurrent_initial, h.first, h.initial]
    unfold startOf
    cases ns with
    | nil =>
      by_cases hr : n = lit "Root"
      · subst hr; simp
      · have hr' : ¬ lit "Root" = n := fun e => hr e.symm
        cases b <;> simp [hr, hr']
    | cons m ms =>
      by_cases hr : n = lit "Root"
      · subst hr; simp
      · have hr' : ¬ lit "Root" = n := fun e => hr e.symm
        simp [hr, hr']
  · unfold Compiler.setCurrent
    simp
  · intro hw
    have := h.errors hw
    unfold Compiler.setCurrent Compiler.setInitial Compiler.register
    dsimp only
    split_ifs <;> simp [this, hw]

theorem multichar_step {cfg : Config} {b hash : Bool} {c : Compiler} {known : List Bytes}
    {lex m : Bytes} {zs : List (Entry × Item)} {ns : List Bytes} (h : Inv cfg b hash c known lex zs ns)
    (hp : ∀ q ∈ [m, replaceFirst (lit "@ZERO@") (lit "0") m, replaceFirst (lit "0") (lit "@ZERO@") m], q ≠ [] ∧ Plain q) :
    Inv cfg b hash (c.multichar m) (known ++ [m, replaceFirst (lit "@ZERO@") (lit "0") m, replaceFirst (lit "0") (lit "@ZERO@") m])
      lex zs ns := by
  unfold Compiler.multichar
  refine h.ext (((ext_add cfg c m).trans (ext_add cfg _ _)).trans (ext_add cfg _ _)) ?_
  have := ((h.core.add (hp m (by simp))).add (hp (replaceFirst (lit "@ZERO@") (lit "0") m) (by simp))).add (hp (replaceFirst (lit "0") (lit "@ZERO@") m) (by simp))
  refine this.congr ?_
  intro q
  simp only [List.mem_append, List.mem_cons, List.not_mem_nil, or_false]
  tauto

/-- Reading all lines. -/
theorem run_inv {cfg : Config} {B : Backend} (hB : B.Ok) {b hash : Bool} {known : List Bytes} {lex : Bytes} {calls : List Call}
    {es : List Entry} {known' : List Bytes} (h : Reads cfg (fun g => (B.optimize g).alphabet) known lex calls es known')
    (hp : ∀ q ∈ known', q ≠ [] ∧ Plain q ∧ (another <+: q → q = another)) :
    ∀ (c : Compiler) (zs : List (Entry × Item)) (ns : List Bytes), Inv cfg b hash c known lex zs ns →
      (∀ x ∈ calls, CallOk cfg known' x) → (∀ e ∈ es, NameOk e.lex) → (∀ e ∈ es, ∀ x ∈ e.symbols, Written x) →
      ∃ c' lex' zs', c.run cfg B calls = .ok c' ∧ Inv cfg b hash c' known' lex' (zs ++ zs') (ns ++ lexiconNames calls) ∧
        zs'.map (·.1) = es := by
  induction h with
  | nil =>
    intro c zs ns hi _ _ _
    exact ⟨c, _, [], rfl, by simpa [lexiconNames] using hi, rfl⟩
  | @noFlag known lex n xs es known' _ ih =>
    intro c zs ns hi hc hn hs
    have hi' : Inv cfg b hash { c with noFlags := setInsert c.noFlags n } known lex zs ns :=
      hi.ext ⟨rfl, rfl, rfl, rfl, rfl, rfl, fun _ h => h, fun _ h => h⟩ (hi.core.same rfl rfl)
    obtain ⟨c', lex', zs', h1, h2, h3⟩ := ih hp _ zs ns hi' (fun x hx => hc x (by simp [hx])) hn hs
    exact ⟨c', lex', zs', h1, h2, h3⟩
  | @multichar known lex m xs es known' hrd ih =>
    intro c zs ns hi hc hn hs
    have hm := reads_mono hrd
    obtain ⟨c', lex', zs', h1, h2, h3⟩ := ih hp _ zs ns
      (multichar_step hi (fun q hq => ⟨(hp q (hm q (List.mem_append_right _ hq))).1, (hp q (hm q (List.mem_append_right _ hq))).2.1⟩))
      (fun x hx => hc x (by simp [hx])) hn hs
    exact ⟨c', lex', zs', h1, h2, h3⟩
  | @lexicon known lex n xs es known' _ ih =>
    intro c zs ns hi hc hn hs
    obtain ⟨c', lex', zs', h1, h2, h3⟩ := ih hp _ zs (ns ++ [n]) (lexicon_step hi (hc (.lexicon n) (by simp)))
      (fun x hx => hc x (by simp [hx])) hn hs
    refine ⟨c', lex', zs', h1, ?_, h3⟩
    simpa [lexiconNames] using h2
  | @string known lex data cont w toks xs es known' hcut hrd ih =>
    intro c zs ns hi hc hn hs
    have hm := reads_mono hrd
    obtain ⟨k1, k2⟩ := hc (.string data cont w) (by simp)
    obtain ⟨c1, it, e1, e2⟩ := string_step (w := w) hi
      (fun q hq => ⟨(hp q (hm q (by simp [hq]))).1, (hp q (hm q (by simp [hq]))).2.1⟩) (hn _ (List.mem_cons_self ..)) k1 k2 hcut
      (fun t ht => hs _ (List.mem_cons_self ..) _ (List.mem_map.mpr ⟨t, ht, rfl⟩))
    obtain ⟨c', lex', zs', h1, h2, h3⟩ := ih hp _ _ ns e2 (fun x hx => hc x (by simp [hx]))
      (fun e he => hn e (by simp [he])) (fun e he => hs e (by simp [he]))
    refine ⟨c', lex', _ :: zs', ?_, by rw [List.append_assoc] at h2; exact h2, by rw [List.map_cons, h3]⟩
    simp only [Compiler.run, Compiler.call, e1, Outcome.bind]
    exact h1
  | @pair known lex upper lower cont w us ls xs es known' hcu hcl hrd ih =>
    intro c zs ns hi hc hn hs
    have hm := reads_mono hrd
    obtain ⟨k1, k2, k3, k4, k5⟩ := hc (.pair upper lower cont w) (by simp)
    have hm' : ∀ q ∈ known ++ clustersOf cfg (side upper) ++ clustersOf cfg (side lower), q ∈ known' :=
      fun q hq => hm q (List.mem_append_left _ hq)
    have hm'' : ∀ q ∈ known ++ clustersOf cfg (side upper) ++ clustersOf cfg (side lower) ++ baseSymbols, q ∈ known' ++ baseSymbols := by
      intro q hq
      rcases List.mem_append.mp hq with hq | hq
      · exact List.mem_append_left _ (hm' q hq)
      · exact List.mem_append_right _ hq
    obtain ⟨c1, it, e1, e2⟩ := pair_step (w := w) hi
      (fun q hq => by
        have := hp q (hm' q (by
          rw [List.append_assoc]; exact List.mem_append_right _ hq))
        exact ⟨this.1, this.2.1⟩)
      (fun q hq => (hp q (hm' q hq)).2.2) (hn _ (List.mem_cons_self ..)) k1 k2 k3 (k4.mono hm'') (k5.mono hm'') hcu hcl
      (fun t ht => hs _ (List.mem_cons_self ..) _ (by
        rw [← List.map_append]
        exact List.mem_map.mpr ⟨t, ht, rfl⟩))
    obtain ⟨c', lex', zs', h1, h2, h3⟩ := ih hp _ _ ns e2 (fun x hx => hc x (by simp [hx]))
      (fun e he => hn e (by simp [he])) (fun e he => hs e (by simp [he]))
    refine ⟨c', lex', _ :: zs', ?_, by rw [List.append_assoc] at h2; exact h2, by rw [List.map_cons, h3]⟩
    have e1' : c.addStringPairEntry cfg (if upper = lit "0" then [] else upper) (if lower = lit "0" then [] else lower) cont w = .ok c1 := e1
    simp only [Compiler.run, Compiler.call, e1', Outcome.bind]
    exact h1
  | @regexp known lex re cont w g xs es known' hx hrd ih =>
    intro c zs ns hi hc hn hs
    have hm := reads_mono hrd
    obtain ⟨k1, k2⟩ := hc (.regexp re cont w) (by simp)
    obtain ⟨k3, k4⟩ := k2 g hx
    obtain ⟨c1, it, e1, e2⟩ := regexp_step hB (w := w) hi hx k3 k4
      (fun q hq => ⟨(hp q (hm q (List.mem_append_right _ hq))).1, (hp q (hm q (List.mem_append_right _ hq))).2.1⟩)
      (hn _ (List.mem_cons_self ..)) k1
    obtain ⟨c', lex', zs', h1, h2, h3⟩ := ih hp _ _ ns e2 (fun x hx => hc x (by simp [hx]))
      (fun e he => hn e (by simp [he])) (fun e he => hs e (by simp [he]))
    refine ⟨c', lex', _ :: zs', ?_, by rw [List.append_assoc] at h2; exact h2, by rw [List.map_cons, h3]⟩
    simp only [Compiler.run, Compiler.call, e1, Outcome.bind]
    exact h1

end Hfst.Lexc
