import Verif.Props.LexcSyms
import Verif.Props.LexcSplice

/-!
# C71: the stages of `compileLexical`
-/
namespace Hfst.Lexc
open Hfst.Basic
open Hfst.Basic.Graph (init)
open Hfst.Tok (Bytes Byte Ok)

/-- A path of the trie: lexicon, continuation, weight and the symbol pairs between the two joiners. -/
structure Item where
  lex : Bytes
  cont : Bytes
  w : Int
  raw : List (Sym × Sym)

/-- A joiner as a pair. -/
def J (n : Bytes) : Sym × Sym := (sym (joiner n), sym (joiner n))

/-- The whole path. -/
def Item.path (it : Item) : List (Sym × Sym) := J it.lex :: (it.raw ++ [J it.cont])

/-- The symbols between the joiners. -/
def Item.body (it : Item) : List (Sym × Sym) := strip (it.raw.map (ren smallSubstitutions))

/-- The pair for a key. -/
def keyPair (a b : Bytes) : Sym × Sym := (sym (regKey a b), sym (regKey a b))

/-- What the rest of the compiler guarantees when `compileLexical` begins. -/
structure Ready (c : Compiler) (items : List Item) : Prop where
  regs : RegsOk c.regs
  trie : runDisjunct init (items.map fun it => (it.path, it.w)) = .ok c.trie
  names : ∀ n ∈ c.names, NameOk n ∧ joiner n ∈ c.regs
  hash : lit "#" ∈ c.names
  initial : c.initial ∈ c.names
  items : ∀ it ∈ items, it.lex ∈ c.names ∧ NameOk it.cont ∧
    ((∀ p ∈ it.raw, Txt0 p.1 ∧ Txt0 p.2) ∨
      it.raw = [keyPair it.lex it.cont] ∧ (mapGet c.regexps (regKey it.lex it.cont)).isSome = true)
  regexps : ∀ e ∈ c.regexps, ∃ a b, NameOk a ∧ NameOk b ∧ e.1 = regKey a b
  graphs : ∀ k h, mapGet c.regexps k = some h → Good h ∧ Closed h

theorem J_ne (n : Bytes) : J n ≠ (epsilon, epsilon) := by
  intro h
  have : sym (joiner n) = epsilon := congrArg Prod.fst h
  exact not_dollar_epsilon (by rw [← this]; exact dollar_joiner n)

theorem keyPair_ne (a b : Bytes) : keyPair a b ≠ (epsilon, epsilon) := by
  intro h
  have : sym (regKey a b) = epsilon := congrArg Prod.fst h
  exact not_dollar_epsilon (by rw [← this]; exact dollar_regKey a b)

theorem J_inj {n m : Bytes} (h : J n = J m) : n = m := joiner_inj (sym_inj (congrArg Prod.fst h))

theorem ren_dollar {p : Sym × Sym} (h1 : Dollar p.1) (h2 : Dollar p.2) : ren smallSubstitutions p = p := by
  simp [ren, small_dollar h1, small_dollar h2]

/-- Sum of the weights. -/
def total : List Item → Int
  | [] => 0
  | it :: its => it.w + total its

/-! ## Star, concatenation -/

theorem star_items {L : List (Sym × Sym) → Int → Prop} {items : List Item}
    (hL : ∀ l w, L l w ↔ ∃ it ∈ items, strip it.path = l ∧ it.w ≤ w) (l : List (Sym × Sym)) (w : Int) :
    Star L l w ↔ ∃ its : List Item, (∀ it ∈ its, it ∈ items) ∧ l = strip (its.flatMap Item.path) ∧ total its ≤ w := by
  constructor
  · intro h
    induction h with
    | nil hw => exact ⟨[], by simp, rfl, hw⟩
    | cons h1 _ ih =>
      obtain ⟨its, h2, rfl, h3⟩ := ih
      obtain ⟨it, h4, rfl, h5⟩ := (hL _ _).mp h1
      refine ⟨it :: its, ?_, ?_, ?_⟩
      · intro x hx
        rcases List.mem_cons.mp hx with rfl | hx
        · exact h4
        · exact h2 x hx
      · rw [List.flatMap_cons, strip_append]
      · simp only [total]; omega
  · rintro ⟨its, h1, rfl, h2⟩
    induction its generalizing w with
    | nil => exact .nil h2
    | cons it its ih =>
      rw [List.flatMap_cons, strip_append]
      simp only [total] at h2
      have := Star.cons ((hL _ _).mpr ⟨it, h1 it (by simp), rfl, Int.le_refl _⟩)
        (ih (w - it.w) (fun x hx => h1 x (by simp [hx])) (by omega))
      have e : it.w + (w - it.w) = w := by omega
      rw [e] at this
      exact this

theorem star_mono_labels {g : Graph} {A : Sym × Sym → Prop} (h : ∀ p, HasLabel g p → A p) {g' : Graph}
    (h' : ∀ p, HasLabel g' p → HasLabel g p ∨ p = (epsilon, epsilon)) (he : A (epsilon, epsilon)) : ∀ p, HasLabel g' p → A p := by
  intro p hp
  rcases h' p hp with h1 | rfl
  · exact h p h1
  · exact he

/-! ## The labels -/

/-- Labels that may occur before the joiners are removed. -/
def Lab (p : Sym × Sym) : Prop :=
  (∃ n, NameOk n ∧ p = J n) ∨ (∃ a b, NameOk a ∧ NameOk b ∧ p = keyPair a b) ∨ (Txt p.1 ∧ Txt p.2)

theorem lab_epsilon : Lab (epsilon, epsilon) := .inr (.inr ⟨.inl rfl, .inl rfl⟩)

theorem Lab.closed {p : Sym × Sym} (h : Lab p) : p.1 ≠ unknown ∧ p.1 ≠ identity ∧ p.2 ≠ unknown ∧ p.2 ≠ identity := by
  rcases h with ⟨n, _, rfl⟩ | ⟨a, b, _, _, rfl⟩ | ⟨h1, h2⟩
  · have := (dollar_joiner n).closed
    exact ⟨this.1, this.2, this.1, this.2⟩
  · have := (dollar_regKey a b).closed
    exact ⟨this.1, this.2, this.1, this.2⟩
  · exact ⟨h1.closed.1, h1.closed.2, h2.closed.1, h2.closed.2⟩

theorem Lab.byte {p : Sym × Sym} (h : Lab p) : ∃ b, Ok b ∧ b ≠ [] ∧ p.2 = sym b := by
  rcases h with ⟨n, hn, rfl⟩ | ⟨a, b, ha, hb, rfl⟩ | ⟨_, h2⟩
  · exact ⟨joiner n, joiner_ok hn, (joiner_atom hn).ne_nil, rfl⟩
  · exact ⟨regKey a b, regKey_ok ha hb, (regKey_atom ha hb).ne_nil, rfl⟩
  · exact h2.byte

/-- Labels that may occur before the small substitutions. -/
def Lab0 (p : Sym × Sym) : Prop :=
  (∃ n, NameOk n ∧ p = J n) ∨ (∃ a b, NameOk a ∧ NameOk b ∧ p = keyPair a b) ∨ (Txt0 p.1 ∧ Txt0 p.2)

theorem lab0_epsilon : Lab0 (epsilon, epsilon) := .inr (.inr ⟨.inl (.inl rfl), .inl (.inl rfl)⟩)

theorem Lab0.ren {p : Sym × Sym} (h : Lab0 p) : Lab (ren smallSubstitutions p) := by
  rcases h with ⟨n, hn, rfl⟩ | ⟨a, b, ha, hb, rfl⟩ | ⟨h1, h2⟩
  · rw [ren_dollar (dollar_joiner n) (dollar_joiner n)]; exact .inl ⟨n, hn, rfl⟩
  · rw [ren_dollar (dollar_regKey a b) (dollar_regKey a b)]; exact .inr (.inl ⟨a, b, ha, hb, rfl⟩)
  · exact .inr (.inr ⟨small_txt h1, small_txt h2⟩)

theorem Ready.lab0 {c : Compiler} {items : List Item} (h : Ready c items) {it : Item} (hi : it ∈ items) {p : Sym × Sym}
    (hp : p ∈ it.path) : Lab0 p := by
  obtain ⟨h1, h2, h3⟩ := h.items it hi
  simp only [Item.path, List.mem_cons, List.mem_append, List.not_mem_nil, or_false] at hp
  rcases hp with rfl | hp | rfl
  · exact .inl ⟨_, (h.names _ h1).1, rfl⟩
  · rcases h3 with h3 | ⟨h3, _⟩
    · exact .inr (.inr (h3 p hp))
    · rw [h3] at hp
      simp only [List.mem_singleton] at hp
      exact .inr (.inl ⟨_, _, (h.names _ h1).1, h2, hp⟩)
  · exact .inl ⟨_, h2, rfl⟩

/-- The path after the small substitutions. -/
theorem path_ren (it : Item) : strip (it.path.map (ren smallSubstitutions)) = J it.lex :: (it.body ++ [J it.cont]) := by
  unfold Item.path Item.body
  rw [List.map_cons, ren_dollar (dollar_joiner _) (dollar_joiner _), strip_cons (J_ne _), List.map_append, strip_append,
    List.map_singleton, ren_dollar (dollar_joiner _) (dollar_joiner _), strip_cons (J_ne _)]
  rfl

theorem strip_flatMap {α : Type} (f : α → List (Sym × Sym)) (xs : List α) :
    strip (xs.flatMap f) = xs.flatMap fun x => strip (f x) := by
  induction xs with
  | nil => rfl
  | cons x xs ih => rw [List.flatMap_cons, strip_append, ih, List.flatMap_cons]

/-- What lies between the outer joiners. -/
def chainText (its : List Item) : List (Sym × Sym) := its.flatMap fun it => J it.lex :: (it.body ++ [J it.cont])

theorem strip_chainText (its : List Item) : strip ((strip (its.flatMap Item.path)).map (ren smallSubstitutions)) = chainText its := by
  rw [strip_map _ (by simp [ren, small_epsilon]), List.map_flatMap, strip_flatMap]
  unfold chainText
  congr 1
  funext it
  exact path_ren it

/-! ## The transducers made from texts -/

theorem addText_spec {cfg : Config} {regs : List Bytes} {g : Graph} {text : Bytes} {toks : List Bytes}
    (ht : tokenize cfg regs false text = .ok toks) (hne : ∀ t ∈ toks, t ≠ []) :
    ∃ g', addText cfg regs g text = .ok g' ∧ g.disjunct (toks.map fun x => (sym x, sym x)) 0 = .ok g' := by
  obtain ⟨g', h⟩ := disjunct_ok g (toks.map fun x => (sym x, sym x)) 0 (by
    intro p hp
    obtain ⟨t, ht, rfl⟩ := List.mem_map.mp hp
    have := sym_ne_nil.mpr (hne t ht)
    exact ⟨this, this⟩)
  exact ⟨g', by rw [addText, ht]; exact h, h⟩

theorem single_spec {cfg : Config} {regs : List Bytes} (hr : RegsOk regs) {n : Bytes} (hn : NameOk n) (hm : joiner n ∈ regs) :
    ∃ g, addText cfg regs init (joiner n) = .ok g ∧ Good g ∧ (∀ p, HasLabel g p → p = J n) ∧
      ∀ l w, Cost g l w ↔ l = [J n] ∧ 0 ≤ w := by
  have ht := tokens_single (cfg := cfg) (fun r h => (hr r h).1) false (joiner_atom hn).ne_nil hm
  obtain ⟨g, h1, h2⟩ := addText_spec (g := init) ht (by simp [(joiner_atom hn).ne_nil])
  have h3 : runDisjunct init [([J n], 0)] = .ok g := by
    simp only [runDisjunct]
    simp only [List.map_cons, List.map_nil] at h2
    rw [show [J n] = [(sym (joiner n), sym (joiner n))] from rfl, h2]
  refine ⟨g, h1, (trie_good h3).1, ?_, ?_⟩
  · intro p hp
    obtain ⟨c, hc, hp⟩ := (trie_good h3).2 p hp
    simp only [List.mem_singleton] at hc
    subst hc
    simpa using hp
  · intro l w
    rw [trie_cost h3]
    simp only [List.mem_singleton, exists_eq_left]
    rw [strip_cons (J_ne n)]
    constructor
    · rintro ⟨rfl, h⟩; exact ⟨rfl, h⟩
    · rintro ⟨rfl, h⟩; exact ⟨rfl, h⟩

/-! ## Before the filter -/

theorem closed_of_lab {g : Graph} (h : ∀ p, HasLabel g p → Lab p) : Closed g := fun p hp => (h p hp).closed

theorem overgenerate_spec {cfg : Config} {B : Backend} (hB : B.Ok) {c : Compiler} {items : List Item} (h : Ready c items) :
    ∃ g, c.overgenerate cfg B = .ok g ∧ Good g ∧ (∀ p, HasLabel g p → Lab p) ∧
      ∀ l w, Cost g l w ↔ ∃ its : List Item, (∀ it ∈ its, it ∈ items) ∧
        l = J c.initial :: (chainText its ++ [J (lit "#")]) ∧ total its ≤ w := by
  obtain ⟨t1, t2⟩ := trie_good h.trie
  have t3 := trie_cost h.trie
  have lab0 : ∀ p, HasLabel c.trie p → Lab0 p := by
    intro p hp
    obtain ⟨d, hd, hp⟩ := t2 p hp
    obtain ⟨it, hi, rfl⟩ := List.mem_map.mp hd
    exact h.lab0 hi hp
  have o1 := hB.optimize_good _ t1
  have s1 := hB.star_good _ o1
  have o2 := hB.optimize_good _ s1
  have l1 : ∀ p, HasLabel (B.optimize (B.star (B.optimize c.trie))) p → Lab0 p :=
    star_mono_labels (star_mono_labels (star_mono_labels lab0 (hB.optimize_labels _ t1) lab0_epsilon)
      (hB.star_labels _ o1) lab0_epsilon) (hB.optimize_labels _ s1) lab0_epsilon
  have c1 : ∀ l w, Cost (B.optimize (B.star (B.optimize c.trie))) l w ↔
      ∃ its : List Item, (∀ it ∈ its, it ∈ items) ∧ l = strip (its.flatMap Item.path) ∧ total its ≤ w := by
    intro l w
    rw [hB.optimize_cost _ s1, hB.star_cost _ o1]
    refine star_items ?_ l w
    intro l w
    rw [hB.optimize_cost _ t1, t3]
    simp
  obtain ⟨g2, e2, good2, lab2, cost2⟩ := substituteMap_spec o2 smallSubstitutions small_valid small_epsilon
  obtain ⟨good3, lab3, cost3⟩ := prune_spec good2
  have lab3' : ∀ p, HasLabel g2.pruneAlphabet p → Lab p := by
    intro p hp
    obtain ⟨p', hp', rfl⟩ := lab2 p (lab3 p hp)
    exact (l1 p' hp').ren
  have c3 : ∀ l w, Cost g2.pruneAlphabet l w ↔
      ∃ its : List Item, (∀ it ∈ its, it ∈ items) ∧ l = chainText its ∧ total its ≤ w := by
    intro l w
    rw [cost3, cost2]
    constructor
    · rintro ⟨l', hl', rfl⟩
      obtain ⟨its, h1, rfl, h2⟩ := (c1 _ _).mp hl'
      exact ⟨its, h1, strip_chainText its, h2⟩
    · rintro ⟨its, h1, rfl, h2⟩
      exact ⟨_, (c1 _ _).mpr ⟨its, h1, rfl, h2⟩, (strip_chainText its).symm⟩
  obtain ⟨gs, es, goods, labs, costs⟩ := single_spec (cfg := cfg) h.regs (h.names _ h.initial).1 (h.names _ h.initial).2
  obtain ⟨ge, ee, goode, labe, coste⟩ := single_spec (cfg := cfg) h.regs (h.names _ h.hash).1 (h.names _ h.hash).2
  have labs' : ∀ p, HasLabel gs p → Lab p := fun p hp => .inl ⟨_, (h.names _ h.initial).1, labs p hp⟩
  have labe' : ∀ p, HasLabel ge p → Lab p := fun p hp => .inl ⟨_, (h.names _ h.hash).1, labe p hp⟩
  have good4 := hB.concat_good _ _ goods good3
  have lab4 : ∀ p, HasLabel (B.concat gs g2.pruneAlphabet) p → Lab p := by
    intro p hp
    rcases hB.concat_labels _ _ goods good3 (closed_of_lab labs') (closed_of_lab lab3') p hp with h | h | rfl
    · exact labs' p h
    · exact lab3' p h
    · exact lab_epsilon
  have good5 := hB.concat_good _ _ good4 goode
  have lab5 : ∀ p, HasLabel (B.concat (B.concat gs g2.pruneAlphabet) ge) p → Lab p := by
    intro p hp
    rcases hB.concat_labels _ _ good4 goode (closed_of_lab lab4) (closed_of_lab labe') p hp with h | h | rfl
    · exact lab4 p h
    · exact labe' p h
    · exact lab_epsilon
  refine ⟨B.optimize (B.concat (B.concat gs g2.pruneAlphabet) ge), ?_, hB.optimize_good _ good5,
    star_mono_labels lab5 (hB.optimize_labels _ good5) lab_epsilon, ?_⟩
  · unfold Compiler.overgenerate
    simp only [e2, es, ee, Outcome.bind]
  · intro l w
    rw [hB.optimize_cost _ good5, hB.concat_cost _ _ good4 goode (closed_of_lab lab4) (closed_of_lab labe')]
    constructor
    · rintro ⟨l1, l2, w1, w2, h1, h2, rfl, rfl⟩
      obtain ⟨l3, l4, w3, w4, h3, h4, rfl, rfl⟩ := (hB.concat_cost _ _ goods good3 (closed_of_lab labs') (closed_of_lab lab3') _ _).mp h1
      obtain ⟨rfl, h5⟩ := (costs _ _).mp h3
      obtain ⟨rfl, h6⟩ := (coste _ _).mp h2
      obtain ⟨its, h7, rfl, h8⟩ := (c3 _ _).mp h4
      exact ⟨its, h7, by simp, by omega⟩
    · rintro ⟨its, h1, rfl, h2⟩
      refine ⟨[J c.initial] ++ chainText its, [J (lit "#")], w, 0,
        (hB.concat_cost _ _ goods good3 (closed_of_lab labs') (closed_of_lab lab3') _ _).mpr
          ⟨[J c.initial], chainText its, 0, w, (costs _ _).mpr ⟨rfl, Int.le_refl _⟩, (c3 _ _).mpr ⟨its, h1, rfl, h2⟩, rfl, by omega⟩,
        (coste _ _).mpr ⟨rfl, Int.le_refl _⟩, by simp, by omega⟩

/-! ## The filter -/

/-- What the filter lets through. -/
inductive Fil (names : List Bytes) (R : List Sym) : List Sym → Prop
  | nil : Fil names R []
  | pair {n : Bytes} {s : List Sym} : n ∈ names → Fil names R s → Fil names R (sym (joiner n) :: sym (joiner n) :: s)
  | one {x : Sym} {s : List Sym} : x ∈ R → Fil names R s → Fil names R (x :: s)

/-- Symbols as identity pairs. -/
def dup (s : List Sym) : List (Sym × Sym) := s.map fun x => (x, x)

theorem addJoiners_spec {cfg : Config} {regs : List Bytes} (hr : RegsOk regs) (ns : List Bytes)
    (hn : ∀ n ∈ ns, NameOk n ∧ joiner n ∈ regs) (g0 g : Graph) (done : List (List (Sym × Sym) × Int))
    (h0 : runDisjunct g0 done = .ok g) :
    ∃ g', addJoiners cfg regs ns g = .ok g' ∧ runDisjunct g0 (done ++ ns.map fun n => ([J n, J n], 0)) = .ok g' := by
  induction ns generalizing g done with
  | nil => exact ⟨g, rfl, by simpa using h0⟩
  | cons n ns ih =>
    obtain ⟨h1, h2⟩ := hn n (by simp)
    have ht := tokens_atoms (cfg := cfg) hr false [joiner n, joiner n] (by
      intro x hx
      have : x = joiner n := by simpa using hx
      subst this
      exact ⟨joiner_atom h1, joiner_ok h1, h2⟩)
    have e : [joiner n, joiner n].flatten = joiner n ++ joiner n := by simp
    rw [e] at ht
    obtain ⟨g1, e1, e2⟩ := addText_spec (g := g) ht (by simp [(joiner_atom h1).ne_nil])
    obtain ⟨g', e3, e4⟩ := ih (fun m hm => hn m (by simp [hm])) g1 (done ++ [([J n, J n], 0)])
      (runDisjunct_append h0 ([J n, J n], 0) e2)
    refine ⟨g', ?_, ?_⟩
    · simp only [addJoiners, e1, Outcome.bind, e3]
    · simpa using e4

theorem addRights_spec {cfg : Config} (xs : List Sym) (hx : ∀ x ∈ xs, ∃ b, Ok b ∧ b ≠ [] ∧ x = sym b) (regs : List Bytes)
    (hr : ∀ r ∈ regs, Ok r) (g0 g : Graph) (done : List (List (Sym × Sym) × Int)) (h0 : runDisjunct g0 done = .ok g) :
    ∃ g', addRights cfg xs regs g = .ok g' ∧ runDisjunct g0 (done ++ xs.map fun x => ([(x, x)], 0)) = .ok g' := by
  induction xs generalizing g done regs with
  | nil => exact ⟨g, rfl, by simpa using h0⟩
  | cons x xs ih =>
    obtain ⟨b, h1, h2, rfl⟩ := hx x (by simp)
    have hr' : ∀ r ∈ regs ++ [b], Ok r := by
      intro r hr''
      rcases List.mem_append.mp hr'' with h | h
      · exact hr r h
      · simp only [List.mem_singleton] at h; rw [h]; exact h1
    have ht := tokens_single (cfg := cfg) hr' false h2 (by simp)
    obtain ⟨g1, e1, e2⟩ := addText_spec (g := g) ht (by simp [h2])
    obtain ⟨g', e3, e4⟩ := ih (fun m hm => hx m (by simp [hm])) (regs ++ [b]) hr' g1 (done ++ [([(sym b, sym b)], 0)])
      (runDisjunct_append h0 ([(sym b, sym b)], 0) e2)
    refine ⟨g', ?_, ?_⟩
    · simp only [addRights, bytes_sym, e1, Outcome.bind, e3]
    · simpa using e4

theorem mem_rightSymbols {g : Graph} {x : Sym} : x ∈ rightSymbols g ↔ (∃ p, HasLabel g p ∧ p.2 = x) ∧ excluded x = false := by
  unfold rightSymbols
  rw [List.mem_eraseDups, List.mem_filter, List.mem_map]
  constructor
  · rintro ⟨⟨a, ha, rfl⟩, h⟩
    obtain ⟨l, hl, ha⟩ := List.mem_flatten.mp ha
    obtain ⟨s, hs, rfl⟩ := List.getElem_of_mem hl
    exact ⟨⟨a.label, ⟨s, a, by simpa [Graph.arcs, List.getElem?_eq_getElem hs] using ha, rfl⟩, rfl⟩, by simpa using h⟩
  · rintro ⟨⟨p, ⟨s, a, ha, rfl⟩, rfl⟩, h⟩
    have hs := Graph.lt_of_mem_arcs ha
    refine ⟨⟨a, List.mem_flatten.mpr ⟨g.states[s], List.getElem_mem hs, ?_⟩, rfl⟩, by simpa using h⟩
    simpa [Graph.arcs, List.getElem?_eq_getElem hs] using ha

theorem right_lab {g : Graph} (hl : ∀ p, HasLabel g p → Lab p) {x : Sym} (hx : x ∈ rightSymbols g) :
    x ≠ epsilon ∧ (∀ n, x ≠ sym (joiner n)) ∧ x ≠ unknown ∧ x ≠ identity ∧ ∃ b, Ok b ∧ b ≠ [] ∧ x = sym b := by
  obtain ⟨⟨p, hp, rfl⟩, he⟩ := mem_rightSymbols.mp hx
  have := (hl p hp).closed
  refine ⟨?_, ?_, this.2.2.1, this.2.2.2, (hl p hp).byte⟩
  · intro h; rw [h, excluded_epsilon] at he; cases he
  · intro n h; rw [h, excluded_joiner] at he; cases he

theorem filter_spec {cfg : Config} {B : Backend} (hB : B.Ok) {c : Compiler} {items : List Item} (h : Ready c items) {g : Graph}
    (hl : ∀ p, HasLabel g p → Lab p) :
    ∃ f, c.filter cfg B g = .ok f ∧ Good f ∧ Closed f ∧ (∀ p, HasLabel f p → p.1 = p.2) ∧
      ∀ l w, Cost f l w ↔ ∃ s, Fil c.names (rightSymbols g) s ∧ l = dup s ∧ 0 ≤ w := by
  obtain ⟨t1, e1, r1⟩ := addJoiners_spec (cfg := cfg) h.regs c.names h.names init init [] rfl
  obtain ⟨t2, e2, r2⟩ := addRights_spec (cfg := cfg) (rightSymbols g) (fun x hx => (right_lab hl hx).2.2.2.2) c.regs
    (fun r hr => (h.regs r hr).1) init t1 _ r1
  obtain ⟨good2, lab2⟩ := trie_good r2
  have lab2' : ∀ p, HasLabel t2 p → (p.1 = p.2 ∧ p.1 ≠ unknown ∧ p.1 ≠ identity) := by
    intro p hp
    obtain ⟨d, hd, hp⟩ := lab2 p hp
    simp only [List.nil_append, List.mem_append, List.mem_map] at hd
    rcases hd with ⟨n, _, rfl⟩ | ⟨x, hx, rfl⟩
    · have : p = J n := by simpa using hp
      subst this
      exact ⟨rfl, (dollar_joiner n).closed⟩
    · have : p = (x, x) := by simpa using hp
      subst this
      have := right_lab hl hx
      exact ⟨rfl, this.2.2.1, this.2.2.2.1⟩
  have hcost2 : ∀ l w, Cost t2 l w ↔ ((∃ n ∈ c.names, l = [J n, J n]) ∨ ∃ x ∈ rightSymbols g, l = [(x, x)]) ∧ 0 ≤ w := by
    intro l w
    rw [trie_cost r2]
    simp only [List.nil_append, List.mem_append, List.mem_map]
    constructor
    · rintro ⟨d, ⟨n, hn, rfl⟩ | ⟨x, hx, rfl⟩, rfl, hw⟩
      · exact ⟨.inl ⟨n, hn, by rw [strip_cons (J_ne n), strip_cons (J_ne n)]; rfl⟩, hw⟩
      · refine ⟨.inr ⟨x, hx, ?_⟩, hw⟩
        have : (x, x) ≠ (epsilon, epsilon) := fun e => (right_lab hl hx).1 (congrArg Prod.fst e)
        rw [strip_cons this]; rfl
    · rintro ⟨⟨n, hn, rfl⟩ | ⟨x, hx, rfl⟩, hw⟩
      · exact ⟨_, .inl ⟨n, hn, rfl⟩, by rw [strip_cons (J_ne n), strip_cons (J_ne n)]; rfl, hw⟩
      · refine ⟨_, .inr ⟨x, hx, rfl⟩, ?_, hw⟩
        have : (x, x) ≠ (epsilon, epsilon) := fun e => (right_lab hl hx).1 (congrArg Prod.fst e)
        rw [strip_cons this]; rfl
  have good3 := hB.star_good _ good2
  have lab4 : ∀ p, HasLabel (B.optimize (B.star t2)) p → (p.1 = p.2 ∧ p.1 ≠ unknown ∧ p.1 ≠ identity) :=
    star_mono_labels (star_mono_labels lab2' (hB.star_labels _ good2) (by decide)) (hB.optimize_labels _ good3) (by decide)
  refine ⟨B.optimize (B.star t2), ?_, hB.optimize_good _ good3, ?_, fun p hp => (lab4 p hp).1, ?_⟩
  · unfold Compiler.filter
    simp only [e1, e2, Outcome.bind]
  · intro p hp
    obtain ⟨h1, h2, h3⟩ := lab4 p hp
    exact ⟨h2, h3, by rw [← h1]; exact h2, by rw [← h1]; exact h3⟩
  · intro l w
    rw [hB.optimize_cost _ good3, hB.star_cost _ good2]
    constructor
    · intro hs
      induction hs with
      | nil hw => exact ⟨[], .nil, rfl, hw⟩
      | cons h1 _ ih =>
        obtain ⟨s, h2, rfl, h3⟩ := ih
        obtain ⟨⟨n, hn, rfl⟩ | ⟨x, hx, rfl⟩, h4⟩ := (hcost2 _ _).mp h1
        · exact ⟨_, .pair hn h2, rfl, by omega⟩
        · exact ⟨_, .one hx h2, rfl, by omega⟩
    · rintro ⟨s, hs, rfl, hw⟩
      have aux : ∀ s, Fil c.names (rightSymbols g) s → Star (Cost t2) (dup s) w := by
        intro s hs
        induction hs with
        | nil => exact .nil hw
        | @pair n s hn _ ih =>
          have := Star.cons ((hcost2 [J n, J n] 0).mpr ⟨.inl ⟨n, hn, rfl⟩, Int.le_refl _⟩) ih
          rw [Int.zero_add] at this
          exact this
        | @one x s hx _ ih =>
          have := Star.cons ((hcost2 [(x, x)] 0).mpr ⟨.inr ⟨x, hx, rfl⟩, Int.le_refl _⟩) ih
          rw [Int.zero_add] at this
          exact this
      exact aux s hs

/-! ## Chains of entries -/

/-- The items follow each other from lexicon `n` to the end. -/
def Linked : Bytes → List Item → Prop
  | n, [] => n = lit "#"
  | n, it :: its => it.lex = n ∧ Linked it.cont its

/-- The output symbols without epsilons. -/
def outs (l : List (Sym × Sym)) : List Sym := (l.map (·.2)).filter fun x => x ≠ epsilon

theorem outputs_eq (l : List (Sym × Sym)) : outputs l = dup (outs l) := rfl

theorem outs_append (a b : List (Sym × Sym)) : outs (a ++ b) = outs a ++ outs b := by simp [outs]

theorem outs_J (n : Bytes) (l : List (Sym × Sym)) : outs (J n :: l) = sym (joiner n) :: outs l := by
  have : sym (joiner n) ≠ epsilon := fun e => not_dollar_epsilon (by rw [← e]; exact dollar_joiner n)
  simp [outs, J, this]

theorem fil_skip {names : List Bytes} {R : List Sym} {b s : List Sym} (hb : ∀ x ∈ b, ∀ n, x ≠ sym (joiner n))
    (h : Fil names R (b ++ s)) : Fil names R s := by
  induction b with
  | nil => exact h
  | cons x b ih =>
    rw [List.cons_append] at h
    refine ih (fun y hy => hb y (by simp [hy])) ?_
    generalize hr : b ++ s = r at h
    generalize hx : x :: r = t at h
    cases h with
    | nil => cases hx
    | @pair n _ _ _ => simp at hx; exact absurd hx.1 (hb x (by simp) n)
    | one _ h => simp at hx; rw [hx.2]; exact h

theorem fil_linked {names : List Bytes} {R : List Sym} (hR : ∀ x ∈ R, ∀ n, x ≠ sym (joiner n)) (its : List Item)
    (hits : ∀ it ∈ its, ∀ x ∈ outs it.body, ∀ n, x ≠ sym (joiner n)) (n : Bytes)
    (h : Fil names R (outs (J n :: (chainText its ++ [J (lit "#")])))) : Linked n its := by
  have step : ∀ (a b : Bytes) (s : List Sym), Fil names R (sym (joiner a) :: sym (joiner b) :: s) → a = b ∧ Fil names R s := by
    intro a b s h
    generalize ht : sym (joiner a) :: sym (joiner b) :: s = t at h
    cases h with
    | nil => cases ht
    | @pair m _ _ h =>
      simp at ht
      have e1 := joiner_inj (sym_inj ht.1)
      have e2 := joiner_inj (sym_inj ht.2.1)
      exact ⟨e1.trans e2.symm, by rw [ht.2.2]; exact h⟩
    | one hx _ =>
      simp at ht
      exact absurd ht.1.symm (hR _ hx a)
  induction its generalizing n with
  | nil =>
    simp only [chainText, List.flatMap_nil, List.nil_append] at h
    rw [outs_J, outs_J] at h
    exact (step _ _ _ h).1
  | cons it its ih =>
    have e : J n :: (chainText (it :: its) ++ [J (lit "#")]) =
        J n :: J it.lex :: (it.body ++ (J it.cont :: (chainText its ++ [J (lit "#")]))) := by
      simp [chainText]
    rw [e, outs_J, outs_J, outs_append] at h
    obtain ⟨h1, h2⟩ := step _ _ _ h
    have h3 := fil_skip (hits it (by simp)) h2
    exact ⟨h1.symm, ih (fun x hx => hits x (by simp [hx])) it.cont h3⟩

theorem linked_fil {names : List Bytes} {R : List Sym} (hh : lit "#" ∈ names) (its : List Item)
    (hits : ∀ it ∈ its, (∀ x ∈ outs it.body, x ∈ R) ∧ it.lex ∈ names) (n : Bytes) (h : Linked n its) :
    Fil names R (outs (J n :: (chainText its ++ [J (lit "#")]))) := by
  have put : ∀ (b s : List Sym), (∀ x ∈ b, x ∈ R) → Fil names R s → Fil names R (b ++ s) := by
    intro b s hb hs
    induction b with
    | nil => exact hs
    | cons x b ih => exact .one (hb x (by simp)) (ih fun y hy => hb y (by simp [hy]))
  induction its generalizing n with
  | nil =>
    simp only [Linked] at h
    subst h
    simp only [chainText, List.flatMap_nil, List.nil_append]
    rw [outs_J, outs_J]
    exact .pair hh .nil
  | cons it its ih =>
    obtain ⟨rfl, h⟩ := h
    have e : J it.lex :: (chainText (it :: its) ++ [J (lit "#")]) =
        J it.lex :: J it.lex :: (it.body ++ (J it.cont :: (chainText its ++ [J (lit "#")]))) := by
      simp [chainText]
    rw [e, outs_J, outs_J, outs_append]
    exact .pair (hits it (by simp)).2 (put _ _ (hits it (by simp)).1 (ih (fun x hx => hits x (by simp [hx])) _ h))

theorem Linked.conts {names : List Bytes} (hh : lit "#" ∈ names) {its : List Item} {n : Bytes} (h : Linked n its)
    (hl : ∀ it ∈ its, it.lex ∈ names) : ∀ it ∈ its, it.cont ∈ names := by
  induction its generalizing n with
  | nil => simp
  | cons it its ih =>
    obtain ⟨_, h⟩ := h
    intro x hx
    rcases List.mem_cons.mp hx with rfl | hx
    · cases its with
      | nil => simp only [Linked] at h; rw [h]; exact hh
      | cons y its => rw [← h.1]; exact hl y (by simp)
    · exact ih h (fun z hz => hl z (by simp [hz])) x hx

/-- The symbols between the joiners: texts, or a key. -/
theorem Ready.body {c : Compiler} {items : List Item} (h : Ready c items) {it : Item} (hi : it ∈ items) :
    (∀ p ∈ it.body, Txt p.1 ∧ Txt p.2 ∧ p ≠ (epsilon, epsilon)) ∨
      it.body = [keyPair it.lex it.cont] ∧ (mapGet c.regexps (regKey it.lex it.cont)).isSome = true := by
  obtain ⟨_, _, h3 | ⟨h3, h4⟩⟩ := h.items it hi
  · left
    intro p hp
    obtain ⟨hp, hne⟩ := mem_strip.mp hp
    obtain ⟨q, hq, rfl⟩ := List.mem_map.mp hp
    exact ⟨small_txt (h3 q hq).1, small_txt (h3 q hq).2, hne⟩
  · right
    refine ⟨?_, h4⟩
    unfold Item.body
    rw [h3, List.map_singleton, keyPair, ren_dollar (dollar_regKey _ _) (dollar_regKey _ _)]
    exact strip_cons (keyPair_ne _ _) []

theorem Ready.body_lab {c : Compiler} {items : List Item} (h : Ready c items) {it : Item} (hi : it ∈ items) {p : Sym × Sym}
    (hp : p ∈ it.body) : (∀ n, p.1 ≠ sym (joiner n)) ∧ (∀ n, p.2 ≠ sym (joiner n)) ∧ p ≠ (epsilon, epsilon) ∧
      (p.2 = epsilon ∨ excluded p.2 = false) := by
  rcases h.body hi with h | ⟨h, _⟩
  · obtain ⟨h1, h2, h3⟩ := h p hp
    refine ⟨?_, ?_, h3, ?_⟩
    · intro n e; exact h1.not_dollar (by rw [e]; exact dollar_joiner n)
    · intro n e; exact h2.not_dollar (by rw [e]; exact dollar_joiner n)
    · by_cases e : p.2 = epsilon
      · exact .inl e
      · exact .inr (not_excluded_txt h2 e)
  · rw [h] at hp
    simp only [List.mem_singleton] at hp
    subst hp
    have : ∀ n, sym (regKey it.lex it.cont) ≠ sym (joiner n) := fun n e => joiner_ne_regKey _ _ _ (sym_inj e).symm
    exact ⟨this, this, keyPair_ne _ _, .inr (not_excluded_key _ _)⟩

/-! ## After the filter -/

theorem joiners_valid (c : Compiler) : ∀ e ∈ c.joinersToEpsilon, e.1 ≠ [] ∧ e.2 ≠ [] := by
  intro e he
  obtain ⟨n, _, rfl⟩ := List.mem_map.mp he
  refine ⟨?_, (by decide : epsilon ≠ [])⟩
  obtain ⟨t, ht⟩ := dollar_joiner n
  simp [ht]

theorem joiners_epsilon (c : Compiler) : c.joinersToEpsilon.lookup epsilon = none := by
  refine lookup_none ?_
  intro e he h
  obtain ⟨n, _, rfl⟩ := List.mem_map.mp he
  exact not_dollar_epsilon (by rw [← h]; exact dollar_joiner n)

theorem joiners_hit (c : Compiler) {n : Bytes} (hn : n ∈ c.names ++ [c.initial, lit "#"]) :
    ren c.joinersToEpsilon (J n) = (epsilon, epsilon) := by
  have key : ∀ ns : List Bytes, n ∈ ns → (ns.map fun n => (sym (joiner n), epsilon)).lookup (sym (joiner n)) = some epsilon := by
    intro ns
    induction ns with
    | nil => simp
    | cons m ns ih =>
      intro hm
      rw [List.map_cons, List.lookup_cons]
      by_cases e : m = n
      · subst e; simp
      · have : (sym (joiner n) == sym (joiner m)) = false := by
          rw [beq_eq_false_iff_ne]
          intro h; exact e (joiner_inj (sym_inj h)).symm
        rw [this]
        exact ih ((List.mem_cons.mp hm).resolve_left (fun h => e h.symm))
  have := key _ hn
  unfold ren J Compiler.joinersToEpsilon
  rw [this]
  rfl

theorem joiners_miss (c : Compiler) {p : Sym × Sym} (h1 : ∀ n, p.1 ≠ sym (joiner n)) (h2 : ∀ n, p.2 ≠ sym (joiner n)) :
    ren c.joinersToEpsilon p = p := by
  have key : ∀ x : Sym, (∀ n, x ≠ sym (joiner n)) → c.joinersToEpsilon.lookup x = none := by
    intro x hx
    refine lookup_none ?_
    intro e he h
    obtain ⟨n, _, rfl⟩ := List.mem_map.mp he
    exact hx n h.symm
  simp [ren, key _ h1, key _ h2]

theorem map_ren_id {m : List (Sym × Sym)} {l : List (Sym × Sym)} (h : ∀ p ∈ l, ren m p = p) : l.map (ren m) = l := by
  conv_rhs => rw [← List.map_id l]
  exact List.map_congr_left h

theorem flatMap_congr' {α β : Type} {f g : α → List β} {l : List α} (h : ∀ x ∈ l, f x = g x) : l.flatMap f = l.flatMap g := by
  induction l with
  | nil => rfl
  | cons x l ih => rw [List.flatMap_cons, List.flatMap_cons, h x (by simp), ih fun y hy => h y (by simp [hy])]

theorem joiners_gone {c : Compiler} {items : List Item} (h : Ready c items) {its : List Item} (hi : ∀ it ∈ its, it ∈ items)
    (hl : Linked c.initial its) :
    strip ((J c.initial :: (chainText its ++ [J (lit "#")])).map (ren c.joinersToEpsilon)) = its.flatMap Item.body := by
  have hc := hl.conts h.hash (fun it hit => (h.items it (hi it hit)).1)
  rw [List.map_cons, joiners_hit c (by simp), strip_cons_eps, List.map_append, strip_append, List.map_singleton,
    joiners_hit c (by simp), strip_cons_eps]
  unfold chainText
  rw [List.map_flatMap, strip_flatMap]
  rw [flatMap_congr' (g := Item.body)]
  · simp [strip]
  · intro it hit
    rw [List.map_cons, joiners_hit c (by simp [(h.items it (hi it hit)).1]), strip_cons_eps, List.map_append, strip_append,
      List.map_singleton, joiners_hit c (by simp [hc it hit]), strip_cons_eps,
      map_ren_id (fun p hp => joiners_miss c (h.body_lab (hi it hit) hp).1 (h.body_lab (hi it hit) hp).2.1),
      strip_id (fun p hp => (h.body_lab (hi it hit) hp).2.2.1)]
    simp [strip]

/-- The exchange of `$` and `@` in keys. -/
def Compiler.toMarks (c : Compiler) : List (Sym × Sym) := c.regexps.map fun e => (sym e.1, sym (dollarToAt e.1))

theorem mapGet_isSome_iff {α β : Type} [DecidableEq α] {m : List (α × β)} {k : α} : (mapGet m k).isSome = true ↔ ∃ e ∈ m, e.1 = k := by
  simp [mapGet, List.find?_isSome]

theorem toMarks_spec {c : Compiler} {items : List Item} (h : Ready c items) :
    (∀ e ∈ c.toMarks, e.1 ≠ [] ∧ e.2 ≠ []) ∧ (∀ x, ¬ Dollar x → c.toMarks.lookup x = none) ∧
    (∀ n, c.toMarks.lookup (sym (joiner n)) = none) ∧
    (∀ a b, NameOk a → NameOk b → (mapGet c.regexps (regKey a b)).isSome = true →
      c.toMarks.lookup (sym (regKey a b)) = some (sym (mark a b))) ∧
    (∀ a b, NameOk a → NameOk b → (mapGet c.regexps (regKey a b)).isSome ≠ true →
      c.toMarks.lookup (sym (regKey a b)) = none) := by
  refine ⟨?_, ?_, ?_, ?_, ?_⟩
  · intro e he
    obtain ⟨d, hd, rfl⟩ := List.mem_map.mp he
    obtain ⟨a, b, ha, hb, hk⟩ := h.regexps d hd
    have := (regKey_atom ha hb).ne_nil
    rw [← hk] at this
    exact ⟨sym_ne_nil.mpr this, sym_ne_nil.mpr (by simp [dollarToAt, this])⟩
  · intro x hx
    refine lookup_none ?_
    intro e he hex
    obtain ⟨d, hd, rfl⟩ := List.mem_map.mp he
    obtain ⟨a, b, ha, hb, hk⟩ := h.regexps d hd
    refine hx ?_
    rw [← hex, hk]
    exact dollar_regKey a b
  · intro n
    refine lookup_none ?_
    intro e he hex
    obtain ⟨d, hd, rfl⟩ := List.mem_map.mp he
    obtain ⟨a, b, ha, hb, hk⟩ := h.regexps d hd
    exact joiner_ne_regKey n a b (by rw [← hk]; exact (sym_inj hex).symm)
  · intro a b ha hb hs
    rw [mapGet_isSome_iff] at hs
    unfold Compiler.toMarks
    generalize c.regexps = m at hs
    induction m with
    | nil => obtain ⟨e, he, _⟩ := hs; cases he
    | cons d m ih =>
      rw [List.map_cons, List.lookup_cons]
      by_cases e : d.1 = regKey a b
      · rw [e, dollarToAt_regKey ha hb]; simp
      · have : (sym (regKey a b) == sym d.1) = false := by
          rw [beq_eq_false_iff_ne]
          intro h; exact e (sym_inj h).symm
        rw [this]
        refine ih ?_
        obtain ⟨d', hd', he⟩ := hs
        rcases List.mem_cons.mp hd' with rfl | hd'
        · exact absurd he e
        · exact ⟨d', hd', he⟩
  · intro a b _ _ hs
    refine lookup_none ?_
    intro e he hex
    obtain ⟨d, hd, rfl⟩ := List.mem_map.mp he
    exact hs (mapGet_isSome_iff.mpr ⟨d, hd, sym_inj hex⟩)

theorem marks_get {c : Compiler} {items : List Item} (h : Ready c items) {a b : Bytes} :
    mapGet c.marks (sym (mark a b)) = mapGet c.regexps (regKey a b) := by
  have hr := h.regexps
  unfold Compiler.marks
  generalize c.regexps = m at hr
  induction m with
  | nil => rfl
  | cons d m ih =>
    obtain ⟨a', b', ha', hb', hk⟩ := hr d (by simp)
    have ih := ih (fun e he => hr e (by simp [he]))
    unfold mapGet at ih ⊢
    rw [List.map_cons, List.find?_cons, List.find?_cons, hk, dollarToAt_regKey ha' hb']
    by_cases e : regKey a' b' = regKey a b
    · rw [key_mark e]
      simp [e]
    · have : sym (mark a' b') ≠ sym (mark a b) := fun h => e (mark_key (sym_inj h))
      simp only [this, e, decide_false]
      exact ih

theorem marks_some {c : Compiler} {items : List Item} (h : Ready c items) {x : Sym} (hx : (mapGet c.marks x).isSome = true) :
    ∃ a b, NameOk a ∧ NameOk b ∧ x = sym (mark a b) := by
  obtain ⟨e, he, rfl⟩ := mapGet_isSome_iff.mp hx
  obtain ⟨d, hd, rfl⟩ := List.mem_map.mp he
  obtain ⟨a, b, ha, hb, hk⟩ := h.regexps d hd
  exact ⟨a, b, ha, hb, by rw [hk, dollarToAt_regKey ha hb]⟩

/-- What a single item can become. -/
def ItemLang (c : Compiler) (it : Item) (l : List (Sym × Sym)) (v : Int) : Prop :=
  (it.body = [keyPair it.lex it.cont] ∧ ∃ U, mapGet c.regexps (regKey it.lex it.cont) = some U ∧ Cost U l v) ∨
  ((∀ p ∈ it.body, Txt p.1 ∧ Txt p.2) ∧ l = it.body ∧ v = 0)

/-- What a chain of items can become. -/
inductive ChainLang (c : Compiler) : List Item → List (Sym × Sym) → Int → Prop
  | nil : ChainLang c [] [] 0
  | cons {it : Item} {its : List Item} {l l' : List (Sym × Sym)} {v v' : Int} :
      ItemLang c it l v → ChainLang c its l' v' → ChainLang c (it :: its) (l ++ l') (v + v')

theorem put_append {m : List (Sym × Graph)} {a b l : List (Sym × Sym)} {v : Int} :
    Put m (a ++ b) l v ↔ ∃ l₁ l₂ v₁ v₂, Put m a l₁ v₁ ∧ Put m b l₂ v₂ ∧ l = l₁ ++ l₂ ∧ v = v₁ + v₂ := by
  induction a generalizing l v with
  | nil =>
    constructor
    · intro h; exact ⟨[], l, 0, v, .nil, h, rfl, by omega⟩
    · rintro ⟨l₁, l₂, v₁, v₂, h1, h2, rfl, rfl⟩
      cases h1
      simpa using h2
  | cons p a ih =>
    rw [List.cons_append]
    constructor
    · intro h
      cases h with
      | keep hk h =>
        obtain ⟨l₁, l₂, v₁, v₂, h1, h2, rfl, rfl⟩ := ih.mp h
        exact ⟨_, _, _, _, .keep hk h1, h2, rfl, rfl⟩
      | put hk hc h =>
        obtain ⟨l₁, l₂, v₁, v₂, h1, h2, rfl, rfl⟩ := ih.mp h
        exact ⟨_, _, _, _, .put hk hc h1, h2, by simp, by omega⟩
    · rintro ⟨l₁, l₂, v₁, v₂, h1, h2, rfl, rfl⟩
      cases h1 with
      | keep hk h => exact .keep hk (ih.mpr ⟨_, _, _, _, h, h2, rfl, rfl⟩)
      | put hk hc h =>
        rw [List.append_assoc, Int.add_assoc]
        exact .put hk hc (ih.mpr ⟨_, _, _, _, h, h2, rfl, rfl⟩)

theorem put_keep {m : List (Sym × Graph)} {a l : List (Sym × Sym)} {v : Int} (ha : ∀ p ∈ a, mapGet m p.1 = none) :
    Put m a l v ↔ l = a ∧ v = 0 := by
  induction a generalizing l v with
  | nil =>
    constructor
    · intro h; cases h; exact ⟨rfl, rfl⟩
    · rintro ⟨rfl, rfl⟩; exact .nil
  | cons p a ih =>
    have ih := @ih
    constructor
    · intro h
      cases h with
      | keep hk h =>
        obtain ⟨rfl, rfl⟩ := (ih (fun q hq => ha q (by simp [hq]))).mp h
        exact ⟨rfl, rfl⟩
      | put hk _ _ => rw [ha p (by simp)] at hk; cases hk
    · rintro ⟨rfl, rfl⟩
      exact .keep (ha p (by simp)) ((ih (fun q hq => ha q (by simp [hq]))).mpr ⟨rfl, rfl⟩)

theorem item_put {c : Compiler} {items : List Item} (h : Ready c items) {it : Item} (hi : it ∈ items) (l : List (Sym × Sym)) (v : Int) :
    Put c.marks (it.body.map (ren c.toMarks)) l v ↔ ItemLang c it l v := by
  obtain ⟨h1, h2, h3, h4, h5⟩ := toMarks_spec h
  have hnames := h.items it hi
  rcases h.body hi with hb | ⟨hb, hs⟩
  · have e : it.body.map (ren c.toMarks) = it.body := map_ren_id (by
      intro p hp
      obtain ⟨t1, t2, _⟩ := hb p hp
      simp [ren, h2 _ t1.not_dollar, h2 _ t2.not_dollar])
    rw [e, put_keep]
    · constructor
      · rintro ⟨rfl, rfl⟩; exact .inr ⟨fun p hp => ⟨(hb p hp).1, (hb p hp).2.1⟩, rfl, rfl⟩
      · rintro (⟨hk, _⟩ | ⟨_, rfl, rfl⟩)
        · exfalso
          obtain ⟨t1, _⟩ := hb (keyPair it.lex it.cont) (by rw [hk]; simp)
          exact t1.not_dollar (dollar_regKey _ _)
        · exact ⟨rfl, rfl⟩
    · intro p hp
      cases hm : mapGet c.marks p.1 with
      | none => rfl
      | some U =>
        obtain ⟨a, b, _, _, e⟩ := marks_some h (x := p.1) (by rw [hm]; rfl)
        exact absurd (by rw [← e]; exact (hb p hp).1) (mark_not_txt a b)
  · have hn1 := (h.names _ hnames.1).1
    have e : it.body.map (ren c.toMarks) = [(sym (mark it.lex it.cont), sym (mark it.lex it.cont))] := by
      rw [hb, List.map_singleton]
      simp [ren, keyPair, h4 _ _ hn1 hnames.2.1 hs]
    rw [e]
    constructor
    · intro hp
      left
      refine ⟨hb, ?_⟩
      cases hp with
      | keep hk _ => rw [marks_get h] at hk; rw [hk] at hs; cases hs
      | put hk hc hp =>
        cases hp
        rw [marks_get h] at hk
        exact ⟨_, hk, by simpa using hc⟩
    · rintro (⟨_, U, hU, hc⟩ | ⟨ht, _⟩)
      · have := Put.put (m := c.marks) (p := (sym (mark it.lex it.cont), sym (mark it.lex it.cont)))
          (by rw [marks_get h]; exact hU) hc .nil
        simpa using this
      · exfalso
        exact (ht (keyPair it.lex it.cont) (by rw [hb]; simp)).1.not_dollar (dollar_regKey _ _)

theorem chain_put {c : Compiler} {items : List Item} (h : Ready c items) (its : List Item) (hi : ∀ it ∈ its, it ∈ items)
    (l : List (Sym × Sym)) (v : Int) :
    Put c.marks ((its.flatMap Item.body).map (ren c.toMarks)) l v ↔ ChainLang c its l v := by
  induction its generalizing l v with
  | nil =>
    constructor
    · intro h; cases h; exact .nil
    · intro h; cases h; exact .nil
  | cons it its ih =>
    have ih := @ih (fun x hx => hi x (by simp [hx]))
    rw [List.flatMap_cons, List.map_append, put_append]
    constructor
    · rintro ⟨l₁, l₂, v₁, v₂, h1, h2, rfl, rfl⟩
      exact .cons ((item_put h (hi it (by simp)) _ _).mp h1) ((ih _ _).mp h2)
    · intro hc
      cases hc with
      | cons h1 h2 => exact ⟨_, _, _, _, (item_put h (hi it (by simp)) _ _).mpr h1, (ih _ _).mpr h2, rfl, rfl⟩

/-- The whole of `compileLexical`. -/
theorem compile_spec {cfg : Config} {B : Backend} (hB : B.Ok) {c : Compiler} {items : List Item} (h : Ready c items)
    (he : c.errors = false) (hu : (c.unconnected && cfg.werror) = false) :
    ∃ g, c.compile cfg B = .ok (some g) ∧ ∀ l w, Cost g l w ↔ ∃ its : List Item, (∀ it ∈ its, it ∈ items) ∧
      Linked c.initial its ∧ ∃ v, ChainLang c its l v ∧ total its + v ≤ w := by
  obtain ⟨g3, e3, good3, lab3, cost3⟩ := overgenerate_spec (cfg := cfg) hB h
  obtain ⟨f, ef, goodf, closedf, idf, costf⟩ := filter_spec (cfg := cfg) hB h lab3
  have closed3 := closed_of_lab lab3
  have good4 := hB.compose_good _ _ good3 goodf
  have good4' := hB.optimize_good _ good4
  have lab4 : ∀ p, HasLabel (B.optimize (B.compose g3 f)) p → Lab p :=
    star_mono_labels (star_mono_labels lab3 (hB.compose_labels _ _ good3 goodf closed3 closedf idf) lab_epsilon)
      (hB.optimize_labels _ good4) lab_epsilon
  have cost4 : ∀ l w, Cost (B.optimize (B.compose g3 f)) l w ↔ ∃ its : List Item, (∀ it ∈ its, it ∈ items) ∧
      Linked c.initial its ∧ l = J c.initial :: (chainText its ++ [J (lit "#")]) ∧ total its ≤ w := by
    intro l w
    rw [hB.optimize_cost _ good4, hB.compose_cost _ _ good3 goodf closed3 closedf idf]
    constructor
    · rintro ⟨w1, w2, h1, h2, rfl⟩
      obtain ⟨its, h3, rfl, h4⟩ := (cost3 _ _).mp h1
      obtain ⟨s, h5, h6, h7⟩ := (costf _ _).mp h2
      refine ⟨its, h3, ?_, rfl, by omega⟩
      have hs : s = outs (J c.initial :: (chainText its ++ [J (lit "#")])) := by
        rw [outputs_eq] at h6
        have := congrArg (List.map Prod.fst) h6
        simpa [dup, Function.comp_def] using this.symm
      rw [hs] at h5
      refine fil_linked (fun x hx => (right_lab lab3 hx).2.1) its ?_ _ h5
      intro it hit x hx n
      simp only [outs, List.mem_filter, List.mem_map] at hx
      obtain ⟨⟨p, hp, rfl⟩, _⟩ := hx
      exact (h.body_lab (h3 it hit) hp).2.1 n
    · rintro ⟨its, h1, h2, rfl, h3⟩
      have hc := (cost3 _ w).mpr ⟨its, h1, rfl, h3⟩
      refine ⟨w, 0, hc, (costf _ _).mpr ⟨_, linked_fil h.hash its ?_ _ h2, outputs_eq _, Int.le_refl _⟩, by omega⟩
      intro it hit
      refine ⟨?_, (h.items it (h1 it hit)).1⟩
      intro x hx
      simp only [outs, List.mem_filter, List.mem_map, decide_eq_true_eq] at hx
      obtain ⟨⟨p, hp, rfl⟩, hne⟩ := hx
      refine mem_rightSymbols.mpr ⟨⟨p, hc.labels p ?_, rfl⟩, (h.body_lab (h1 it hit) hp).2.2.2.resolve_left hne⟩
      simp only [chainText, List.mem_cons, List.mem_append, List.mem_flatMap]
      exact .inr (.inl ⟨it, hit, .inr (.inl hp)⟩)
  obtain ⟨g5, e5, good5, lab5, cost5⟩ := substituteMap_spec good4' c.joinersToEpsilon (joiners_valid c) (joiners_epsilon c)
  have good5o := hB.optimize_good _ good5
  obtain ⟨good5', lab5', cost5'⟩ := prune_spec good5o
  have lab6 : ∀ p, HasLabel (B.optimize g5).pruneAlphabet p → Lab p := by
    intro p hp
    refine star_mono_labels (A := Lab) ?_ (hB.optimize_labels _ good5) lab_epsilon p (lab5' p hp)
    intro p hp
    obtain ⟨q, hq, rfl⟩ := lab5 p hp
    rcases lab4 q hq with ⟨n, hn, rfl⟩ | ⟨a, b, ha, hb, rfl⟩ | ⟨h1, h2⟩
    · by_cases hm : n ∈ c.names ++ [c.initial, lit "#"]
      · rw [joiners_hit c hm]; exact lab_epsilon
      · have : c.joinersToEpsilon.lookup (sym (joiner n)) = none := by
          refine lookup_none ?_
          intro e he hex
          obtain ⟨k, hk, rfl⟩ := List.mem_map.mp he
          exact hm (by rw [← joiner_inj (sym_inj hex)]; exact hk)
        have e : ren c.joinersToEpsilon (J n) = J n := by simp [ren, J, this]
        rw [e]; exact .inl ⟨n, hn, rfl⟩
    · have : ∀ n, sym (regKey a b) ≠ sym (joiner n) := fun n e => joiner_ne_regKey _ _ _ (sym_inj e).symm
      rw [joiners_miss c (p := keyPair a b) this this]; exact .inr (.inl ⟨a, b, ha, hb, rfl⟩)
    · rw [joiners_miss c (fun n e => h1.not_dollar (by rw [e]; exact dollar_joiner n))
        (fun n e => h2.not_dollar (by rw [e]; exact dollar_joiner n))]
      exact .inr (.inr ⟨h1, h2⟩)
  have cost6 : ∀ l w, Cost (B.optimize g5).pruneAlphabet l w ↔ ∃ its : List Item, (∀ it ∈ its, it ∈ items) ∧
      Linked c.initial its ∧ l = its.flatMap Item.body ∧ total its ≤ w := by
    intro l w
    rw [cost5', hB.optimize_cost _ good5, cost5]
    constructor
    · rintro ⟨l', hl', rfl⟩
      obtain ⟨its, h1, h2, rfl, h3⟩ := (cost4 _ _).mp hl'
      exact ⟨its, h1, h2, joiners_gone h h1 h2, h3⟩
    · rintro ⟨its, h1, h2, rfl, h3⟩
      exact ⟨_, (cost4 _ _).mpr ⟨its, h1, h2, rfl, h3⟩, (joiners_gone h h1 h2).symm⟩
  obtain ⟨tm1, tm2, tm3, tm4, tm5⟩ := toMarks_spec h
  obtain ⟨g7, e7, good7, lab7, cost7⟩ := substituteMap_spec good5' c.toMarks tm1 (tm2 _ not_dollar_epsilon)
  have good7o := hB.optimize_good _ good7
  obtain ⟨good7', lab7', cost7'⟩ := prune_spec good7o
  have lab8 : ∀ p, HasLabel (B.optimize g7).pruneAlphabet p →
      Lab p ∨ ∃ a b, p = (sym (mark a b), sym (mark a b)) := by
    intro p hp
    refine star_mono_labels (A := fun p => Lab p ∨ ∃ a b, p = (sym (mark a b), sym (mark a b))) ?_
      (hB.optimize_labels _ good7) (.inl lab_epsilon) p (lab7' p hp)
    intro p hp
    obtain ⟨q, hq, rfl⟩ := lab7 p hp
    rcases lab6 q hq with ⟨n, hn, rfl⟩ | ⟨a, b, ha, hb, rfl⟩ | ⟨h1, h2⟩
    · have e : ren c.toMarks (J n) = J n := by simp [ren, J, tm3 n]
      rw [e]; exact .inl (.inl ⟨n, hn, rfl⟩)
    · by_cases hs : (mapGet c.regexps (regKey a b)).isSome = true
      · right
        exact ⟨a, b, by simp [ren, keyPair, tm4 a b ha hb hs]⟩
      · have e : ren c.toMarks (keyPair a b) = keyPair a b := by simp [ren, keyPair, tm5 a b ha hb hs]
        rw [e]; exact .inl (.inr (.inl ⟨a, b, ha, hb, rfl⟩))
    · have e : ren c.toMarks q = q := by simp [ren, tm2 _ h1.not_dollar, tm2 _ h2.not_dollar]
      rw [e]; exact .inl (.inr (.inr ⟨h1, h2⟩))
  have closed8 : Closed (B.optimize g7).pruneAlphabet := by
    intro p hp
    rcases lab8 p hp with h | ⟨a, b, rfl⟩
    · exact h.closed
    · have := (mark_ne_special a b).2
      exact ⟨this.1, this.2, this.1, this.2⟩
  obtain ⟨g9, e9, good9, cost9⟩ := splice_spec good7' closed8 c.marks
    (by
      intro x U hU
      obtain ⟨a, b, _, _, rfl⟩ := marks_some h (x := x) (by rw [hU]; rfl)
      rw [marks_get h] at hU
      exact h.graphs _ U hU)
    (by
      intro e he
      obtain ⟨d, hd, rfl⟩ := List.mem_map.mp he
      obtain ⟨a, b, ha, hb, hk⟩ := h.regexps d hd
      rw [hk]
      exact sym_ne_nil.mpr (by simp [dollarToAt, (regKey_atom ha hb).ne_nil]))
    (by
      cases hm : mapGet c.marks epsilon with
      | none => rfl
      | some U =>
        obtain ⟨a, b, _, _, e⟩ := marks_some h (x := epsilon) (by rw [hm]; rfl)
        exact absurd e.symm (mark_ne_special a b).1)
    (by
      intro p hp hs
      rcases lab8 p hp with (⟨n, _, rfl⟩ | ⟨a, b, _, _, rfl⟩ | ⟨h1, h2⟩) | ⟨a, b, rfl⟩
      · rfl
      · rfl
      · exfalso
        rcases hs with hs | hs
        · obtain ⟨a, b, _, _, e⟩ := marks_some h hs
          exact mark_not_txt a b (by rw [← e]; exact h1)
        · obtain ⟨a, b, _, _, e⟩ := marks_some h hs
          exact mark_not_txt a b (by rw [← e]; exact h2)
      · rfl)
  obtain ⟨good10, _, cost10⟩ := prune_spec good9
  refine ⟨B.optimize g9.pruneAlphabet, ?_, ?_⟩
  · unfold Compiler.compile
    rw [if_neg (by simp [he]), if_neg (by rw [hu]; simp)]
    simp only [e3, ef, e5, Outcome.bind]
    have e7' : Graph.substituteMap (B.optimize g5).pruneAlphabet (c.regexps.map fun e => (sym e.1, sym (dollarToAt e.1))) = .ok g7 := e7
    simp only [e7', e9]
  · intro l w
    rw [hB.optimize_cost _ good10, cost10, cost9]
    have cost8 : ∀ l w, Cost (B.optimize g7).pruneAlphabet l w ↔ ∃ its : List Item, (∀ it ∈ its, it ∈ items) ∧
        Linked c.initial its ∧ l = (its.flatMap Item.body).map (ren c.toMarks) ∧ total its ≤ w := by
      intro l w
      rw [cost7', hB.optimize_cost _ good7, cost7]
      have hst : ∀ its : List Item, (∀ it ∈ its, it ∈ items) →
          strip ((its.flatMap Item.body).map (ren c.toMarks)) = (its.flatMap Item.body).map (ren c.toMarks) := by
        intro its h1
        refine strip_id ?_
        intro p hp
        obtain ⟨q, hq, rfl⟩ := List.mem_map.mp hp
        obtain ⟨it, hit, hq⟩ := List.mem_flatMap.mp hq
        have hn := h.items it (h1 it hit)
        rcases h.body (h1 it hit) with hb | ⟨hb, hs⟩
        · obtain ⟨t1, t2, t3⟩ := hb q hq
          have e : ren c.toMarks q = q := by simp [ren, tm2 _ t1.not_dollar, tm2 _ t2.not_dollar]
          rw [e]; exact t3
        · rw [hb] at hq
          simp only [List.mem_singleton] at hq
          subst hq
          have e : ren c.toMarks (keyPair it.lex it.cont) = (sym (mark it.lex it.cont), sym (mark it.lex it.cont)) := by
            simp [ren, keyPair, tm4 _ _ (h.names _ hn.1).1 hn.2.1 hs]
          rw [e]
          intro e'
          exact (mark_ne_special _ _).1 (congrArg Prod.fst e')
      constructor
      · rintro ⟨l', hl', rfl⟩
        obtain ⟨its, h1, h2, rfl, h3⟩ := (cost6 _ _).mp hl'
        exact ⟨its, h1, h2, hst its h1, h3⟩
      · rintro ⟨its, h1, h2, rfl, h3⟩
        exact ⟨_, (cost6 _ _).mpr ⟨its, h1, h2, rfl, h3⟩, (hst its h1).symm⟩
    constructor
    · rintro ⟨l₀, w₀, v, h1, h2, h3⟩
      obtain ⟨its, h4, h5, rfl, h6⟩ := (cost8 _ _).mp h1
      exact ⟨its, h4, h5, v, (chain_put h its h4 l v).mp h2, by omega⟩
    · rintro ⟨its, h1, h2, v, h3, h4⟩
      exact ⟨_, total its, v, (cost8 _ _).mpr ⟨its, h1, h2, rfl, Int.le_refl _⟩, (chain_put h its h1 l v).mpr h3, h4⟩

end Hfst.Lexc
