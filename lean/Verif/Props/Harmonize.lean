import Verif.Model.Harmonize
import Verif.Spec.Path
import Verif.Lemmas.Graph
import Mathlib.Tactic.ByContra
import Mathlib.Tactic.SplitIfs

/-!
# C30: harmonization
-/
namespace Hfst.Basic
open Graph

/-! ## What unknown and identity stand for -/

/-- Symbols that unknown and identity can stand for: not the special symbols, not flag diacritics, and not the symbols with
a meaning of their own in pattern matching. -/
def Ordinary (x : Sym) : Prop :=
  x ≠ epsilon ∧ x ≠ unknown ∧ x ≠ identity ∧ Flags.isDiacritic x = false ∧ isPmatchSpecial x = false

/-- The ordinary symbols that a transducer with alphabet `al` does not know. -/
def Outside (al : List Sym) (x : Sym) : Prop := Ordinary x ∧ x ∉ al

/-- The concrete symbol pairs that the pair `i`:`o` stands for in a transducer with alphabet `al`. -/
inductive Stands (al : List Sym) (i o : Sym) : Sym × Sym → Prop
  | itself : i ≠ unknown → i ≠ identity → o ≠ unknown → o ≠ identity → Stands al i o (i, o)
  | identity {x : Sym} : i = identity → o = identity → Outside al x → Stands al i o (x, x)
  | input {x : Sym} : i = unknown → o ≠ unknown → o ≠ Basic.identity → Outside al x → Stands al i o (x, o)
  | output {y : Sym} : o = unknown → i ≠ unknown → i ≠ Basic.identity → Outside al y → Stands al i o (i, y)
  | both {x y : Sym} : i = unknown → o = unknown → Outside al x → Outside al y → x ≠ y → Stands al i o (x, y)

/-- Paths with concrete symbol pairs. -/
inductive ConcretePath (g : Graph) : Nat → List (Sym × Sym) → Int → Nat → Prop
  | nil (s : Nat) : ConcretePath g s [] 0 s
  | cons {s q : Nat} {a : Arc} {p : Sym × Sym} {l : List (Sym × Sym)} {w : Int} : a ∈ g.arcs s →
      Stands g.alphabet a.inp a.out p → ConcretePath g a.target l w q → ConcretePath g s (p :: l) (a.weight + w) q

/-- `g` describes the sequence of concrete symbol pairs `l` with weight `w`. -/
def Describes (g : Graph) (l : List (Sym × Sym)) (w : Int) : Prop :=
  ∃ q v f, ConcretePath g 0 l v q ∧ g.final q = some f ∧ w = v + f

/-- Identity stands on both sides of a transition or on none. -/
def IdentityPaired (g : Graph) : Prop := ∀ s, ∀ a ∈ g.arcs s, (a.inp = identity ↔ a.out = identity)

/-- The special symbols are in the alphabet, as in every new transducer. -/
def HasSpecials (g : Graph) : Prop := epsilon ∈ g.alphabet ∧ unknown ∈ g.alphabet ∧ identity ∈ g.alphabet

/-! ## Proof -/

theorem unknown_ne_identity : unknown ≠ identity := by decide

theorem mem_removeFlagsSet {al : List Sym} {x : Sym} :
    x ∈ removeFlagsSet al ↔ x ∈ al ∧ Flags.isDiacritic x = false ∧ isPmatchSpecial x = false := by
  simp [removeFlagsSet]

theorem mem_setDiff {a b : List Sym} {x : Sym} : x ∈ setDiff a b ↔ x ∈ a ∧ x ∉ b := by
  simp [setDiff]

theorem mem_alphabet_addSymbols {g : Graph} {xs : List Sym} {x : Sym} :
    x ∈ (g.addSymbols xs).alphabet ↔ x ∈ g.alphabet ∨ x ∈ xs := by
  unfold Graph.addSymbols
  rw [mem_foldl_setInsert]
  exact or_comm

theorem mem_identityAdds {m : List Sym} {a b : Arc} : b ∈ identityAdds m a ↔
    a.inp = identity ∧ ∃ k ∈ m, b = ⟨a.target, k, k, a.weight⟩ := by
  unfold identityAdds
  split_ifs with h
  · simp [h, eq_comm]
  · simp [h]

theorem mem_unknownAdds {m : List Sym} {a b : Arc} : b ∈ unknownAdds m a ↔
    (a.inp = unknown ∧ ∃ k ∈ m, b = ⟨a.target, k, a.out, a.weight⟩) ∨
    (a.out = unknown ∧ ∃ k ∈ m, b = ⟨a.target, a.inp, k, a.weight⟩) ∨
    (a.inp = unknown ∧ a.out = unknown ∧ ∃ k ∈ m, ∃ l ∈ m, l ≠ k ∧ b = ⟨a.target, l, k, a.weight⟩) := by
  unfold unknownAdds
  rw [List.mem_append, List.mem_append, or_assoc]
  refine or_congr ?_ (or_congr ?_ ?_)
  · split_ifs with h
    · simp [h, eq_comm]
    · simp [h]
  · split_ifs with h
    · simp [h, eq_comm]
    · simp [h]
  · split_ifs with h
    · simp only [List.mem_flatMap, List.mem_map, List.mem_filter, decide_eq_true_eq]
      constructor
      · rintro ⟨k, hk, l, ⟨hl, hne⟩, rfl⟩
        exact ⟨h.1, h.2, k, hk, l, hl, hne, rfl⟩
      · rintro ⟨_, _, k, hk, l, hl, hne, rfl⟩
        exact ⟨k, hk, l, ⟨hl, hne⟩, rfl⟩
    · constructor
      · simp
      · rintro ⟨h1, h2, _⟩; exact absurd ⟨h1, h2⟩ h

/-- What both steps do to the transitions of a state. -/
def expand (m : List Sym) (l : List Arc) : List Arc :=
  (l ++ l.flatMap (identityAdds m)) ++ (l ++ l.flatMap (identityAdds m)).flatMap (unknownAdds m)

/-- The expanded transitions stand, in the larger alphabet, for what the old ones stand for. -/
theorem expand_stands {m al al' : List Sym} (hm : ∀ x ∈ m, Outside al x)
    (hal : ∀ x, Ordinary x → (x ∈ al' ↔ x ∈ al ∨ x ∈ m)) (l : List Arc) (hid : ∀ a ∈ l, (a.inp = identity ↔ a.out = identity))
    (t : Nat) (w : Int) (p : Sym × Sym) :
    (∃ b ∈ expand m l, b.target = t ∧ b.weight = w ∧ Stands al' b.inp b.out p) ↔
      ∃ a ∈ l, a.target = t ∧ a.weight = w ∧ Stands al a.inp a.out p := by
  have out_of : ∀ {x}, Outside al' x → Outside al x := fun {x} h => ⟨h.1, fun hx => h.2 ((hal x h.1).mpr (.inl hx))⟩
  have out_cases : ∀ {x}, Outside al x → Outside al' x ∨ x ∈ m := by
    intro x h
    by_cases hx : x ∈ m
    · exact .inr hx
    · exact .inl ⟨h.1, fun h' => ((hal x h.1).mp h').elim h.2 hx⟩
  have hmu : ∀ {k}, k ∈ m → k ≠ unknown := fun hk => (hm _ hk).1.2.1
  have hmi : ∀ {k}, k ∈ m → k ≠ identity := fun hk => (hm _ hk).1.2.2.1
  -- the members of the expansion
  have hmem : ∀ b, b ∈ expand m l ↔ ∃ a ∈ l, b = a ∨ b ∈ identityAdds m a ∨ b ∈ unknownAdds m a := by
    intro b
    unfold expand
    simp only [List.mem_append, List.mem_flatMap]
    constructor
    · rintro ((h | ⟨a, ha, h⟩) | ⟨c, hc | ⟨a, ha, hc⟩, h⟩)
      · exact ⟨b, h, .inl rfl⟩
      · exact ⟨a, ha, .inr (.inl h)⟩
      · exact ⟨c, hc, .inr (.inr h)⟩
      · obtain ⟨_, k, hk, rfl⟩ := mem_identityAdds.mp hc
        rcases mem_unknownAdds.mp h with ⟨h1, _⟩ | ⟨h1, _⟩ | ⟨h1, _⟩ <;> exact absurd h1 (hmu hk)
    · rintro ⟨a, ha, rfl | h | h⟩
      · exact .inl (.inl ha)
      · exact .inl (.inr ⟨a, ha, h⟩)
      · exact .inr ⟨a, .inl ha, h⟩
  constructor
  · rintro ⟨b, hb, rfl, rfl, hst⟩
    obtain ⟨a, ha, h⟩ := (hmem b).mp hb
    rcases h with rfl | h | h
    · refine ⟨b, ha, rfl, rfl, ?_⟩
      cases hst with
      | itself h1 h2 h3 h4 => exact .itself h1 h2 h3 h4
      | identity h1 h2 h3 => exact .identity h1 h2 (out_of h3)
      | input h1 h2 h3 h4 => exact .input h1 h2 h3 (out_of h4)
      | output h1 h2 h3 h4 => exact .output h1 h2 h3 (out_of h4)
      | both h1 h2 h3 h4 h5 => exact .both h1 h2 (out_of h3) (out_of h4) h5
    · obtain ⟨hi, k, hk, rfl⟩ := mem_identityAdds.mp h
      refine ⟨a, ha, rfl, rfl, ?_⟩
      cases hst with
      | itself => exact .identity hi ((hid a ha).mp hi) (hm k hk)
      | identity h1 => exact absurd h1 (hmi hk)
      | input h1 => exact absurd h1 (hmu hk)
      | output h1 => exact absurd h1 (hmu hk)
      | both h1 => exact absurd h1 (hmu hk)
    · refine ⟨a, ha, ?_⟩
      rcases mem_unknownAdds.mp h with ⟨hi, k, hk, rfl⟩ | ⟨ho, k, hk, rfl⟩ | ⟨hi, ho, k, hk, j, hj, hne, rfl⟩
      · refine ⟨rfl, rfl, ?_⟩
        cases hst with
        | itself h1 h2 h3 h4 => exact .input hi h3 h4 (hm k hk)
        | identity h1 => exact absurd h1 (hmi hk)
        | input h1 => exact absurd h1 (hmu hk)
        | output h1 h2 h3 h4 =>
          exact .both hi h1 (hm k hk) (out_of h4) (fun e => h4.2 ((hal _ h4.1).mpr (.inr (e ▸ hk))))
        | both h1 => exact absurd h1 (hmu hk)
      · refine ⟨rfl, rfl, ?_⟩
        cases hst with
        | itself h1 h2 h3 h4 => exact .output ho h1 h2 (hm k hk)
        | identity _ h1 => exact absurd h1 (hmi hk)
        | input h1 h2 h3 h4 =>
          exact .both h1 ho (out_of h4) (hm k hk) (fun e => h4.2 ((hal _ h4.1).mpr (.inr (e ▸ hk))))
        | output h1 => exact absurd h1 (hmu hk)
        | both _ h1 => exact absurd h1 (hmu hk)
      · refine ⟨rfl, rfl, ?_⟩
        cases hst with
        | itself => exact .both hi ho (hm j hj) (hm k hk) hne
        | identity h1 => exact absurd h1 (hmi hj)
        | input h1 => exact absurd h1 (hmu hj)
        | output h1 => exact absurd h1 (hmu hk)
        | both h1 => exact absurd h1 (hmu hj)
  · rintro ⟨a, ha, rfl, rfl, hst⟩
    have keep : Stands al' a.inp a.out p → ∃ b ∈ expand m l, b.target = a.target ∧ b.weight = a.weight ∧
        Stands al' b.inp b.out p := fun h => ⟨a, (hmem a).mpr ⟨a, ha, .inl rfl⟩, rfl, rfl, h⟩
    have addU : ∀ i o, (⟨a.target, i, o, a.weight⟩ : Arc) ∈ unknownAdds m a → Stands al' i o p →
        ∃ b ∈ expand m l, b.target = a.target ∧ b.weight = a.weight ∧ Stands al' b.inp b.out p :=
      fun i o h h' => ⟨_, (hmem _).mpr ⟨a, ha, .inr (.inr h)⟩, rfl, rfl, h'⟩
    cases hst with
    | itself h1 h2 h3 h4 => exact keep (.itself h1 h2 h3 h4)
    | identity h1 h2 h3 =>
      rename_i x
      rcases out_cases h3 with h | h
      · exact keep (.identity h1 h2 h)
      · exact ⟨⟨a.target, x, x, a.weight⟩, (hmem _).mpr ⟨a, ha, .inr (.inl (mem_identityAdds.mpr ⟨h1, x, h, rfl⟩))⟩, rfl, rfl,
          .itself (hmu h) (hmi h) (hmu h) (hmi h)⟩
    | input h1 h2 h3 h4 =>
      rename_i x
      rcases out_cases h4 with h | h
      · exact keep (.input h1 h2 h3 h)
      · exact addU x a.out (mem_unknownAdds.mpr (.inl ⟨h1, x, h, rfl⟩)) (.itself (hmu h) (hmi h) h2 h3)
    | output h1 h2 h3 h4 =>
      rename_i y
      rcases out_cases h4 with h | h
      · exact keep (.output h1 h2 h3 h)
      · exact addU a.inp y (mem_unknownAdds.mpr (.inr (.inl ⟨h1, y, h, rfl⟩))) (.itself h2 h3 (hmu h) (hmi h))
    | both h1 h2 h3 h4 h5 =>
      rename_i x y
      rcases out_cases h3 with hx | hx <;> rcases out_cases h4 with hy | hy
      · exact keep (.both h1 h2 hx hy h5)
      · refine addU a.inp y (mem_unknownAdds.mpr (.inr (.inl ⟨h2, y, hy, rfl⟩))) ?_
        exact .input h1 (hmu hy) (hmi hy) hx
      · refine addU x a.out (mem_unknownAdds.mpr (.inl ⟨h1, x, hx, rfl⟩)) ?_
        exact .output h2 (hmu hx) (hmi hx) hy
      · exact addU x y (mem_unknownAdds.mpr (.inr (.inr ⟨h1, h2, y, hy, x, hx, h5, rfl⟩)))
          (.itself (hmu hx) (hmi hx) (hmu hy) (hmi hy))

theorem concrete_of {g g' : Graph} (h : ∀ s t w p, (∃ a ∈ g.arcs s, a.target = t ∧ a.weight = w ∧ Stands g.alphabet a.inp a.out p) →
      ∃ b ∈ g'.arcs s, b.target = t ∧ b.weight = w ∧ Stands g'.alphabet b.inp b.out p)
    {s q : Nat} {l : List (Sym × Sym)} {w : Int} (hp : ConcretePath g s l w q) : ConcretePath g' s l w q := by
  induction hp with
  | nil s => exact .nil s
  | cons ha hs _ ih =>
    obtain ⟨b, hb, h1, h2, h3⟩ := h _ _ _ _ ⟨_, ha, rfl, rfl, hs⟩
    rw [← h2]
    rw [← h1] at ih
    exact .cons hb h3 ih

theorem describes_expand {g g' : Graph} {m : List Sym} (harcs : ∀ s, g'.arcs s = expand m (g.arcs s))
    (hfin : ∀ s, g'.final s = g.final s) (hm : ∀ x ∈ m, Outside g.alphabet x)
    (hal : ∀ x, Ordinary x → (x ∈ g'.alphabet ↔ x ∈ g.alphabet ∨ x ∈ m)) (hid : IdentityPaired g)
    (l : List (Sym × Sym)) (w : Int) : Describes g' l w ↔ Describes g l w := by
  have key := fun s => expand_stands hm hal (g.arcs s) (hid s)
  constructor
  · rintro ⟨q, v, f, hp, hf, rfl⟩
    exact ⟨q, v, f, concrete_of (fun s t w p h => by rw [harcs] at h; exact (key s t w p).mp h) hp, by rwa [hfin] at hf, rfl⟩
  · rintro ⟨q, v, f, hp, hf, rfl⟩
    exact ⟨q, v, f, concrete_of (fun s t w p h => by rw [harcs]; exact (key s t w p).mpr h) hp, by rwa [hfin], rfl⟩

theorem any_arc {g : Graph} {f : Arc → Bool} : (g.states.any fun l => l.any f) = true ↔ ∃ s, ∃ a ∈ g.arcs s, f a = true := by
  rw [List.any_eq_true]
  constructor
  · rintro ⟨l, hl, h⟩
    obtain ⟨a, ha, h⟩ := List.any_eq_true.mp h
    obtain ⟨s, hs⟩ := List.mem_iff_getElem?.mp hl
    exact ⟨s, a, by simpa [arcs, hs] using ha, h⟩
  · rintro ⟨s, a, ha, h⟩
    unfold arcs at ha
    cases e : g.states[s]? with
    | none => rw [e] at ha; simp at ha
    | some l =>
      rw [e] at ha
      exact ⟨l, List.mem_of_getElem? e, List.any_eq_true.mpr ⟨a, ha, h⟩⟩

theorem harmonizeIdentity_spec {g : Graph} {m : List Sym} (hid : IdentityPaired g) :
    ∃ h, harmonizeIdentity g m = .ok h ∧ h.alphabet = g.alphabet ∧ (∀ s, h.final s = g.final s) ∧
      ∀ s, h.arcs s = g.arcs s ++ (g.arcs s).flatMap (identityAdds m) := by
  unfold harmonizeIdentity
  by_cases hm : m = []
  · subst hm
    refine ⟨g, by simp, rfl, fun _ => rfl, fun s => ?_⟩
    have : identityAdds [] = fun _ => [] := by funext a; simp [identityAdds]
    simp [this]
  · rw [if_neg hm, if_neg]
    · exact ⟨_, rfl, rfl, fun _ => rfl, fun s => arcs_map g (fun l => l ++ l.flatMap (identityAdds m)) (by simp) s g.alphabet⟩
    · rw [any_arc]
      rintro ⟨s, a, ha, h⟩
      have h := of_decide_eq_true h
      exact h.2 ((hid s a ha).mp h.1)

theorem harmonizeUnknown_spec {g : Graph} {m : List Sym} (hid : IdentityPaired g) :
    ∃ h, harmonizeUnknown g m = .ok h ∧ h.alphabet = g.alphabet ∧ (∀ s, h.final s = g.final s) ∧
      ∀ s, h.arcs s = g.arcs s ++ (g.arcs s).flatMap (unknownAdds m) := by
  unfold harmonizeUnknown
  by_cases hm : m = []
  · subst hm
    refine ⟨g, by simp, rfl, fun _ => rfl, fun s => ?_⟩
    have : unknownAdds [] = fun _ => [] := by funext a; simp [unknownAdds]
    simp [this]
  · rw [if_neg hm, if_neg]
    · exact ⟨_, rfl, rfl, fun _ => rfl, fun s => arcs_map g (fun l => l ++ l.flatMap (unknownAdds m)) (by simp) s g.alphabet⟩
    · rw [any_arc]
      rintro ⟨s, a, ha, h⟩
      have h := of_decide_eq_true h
      rcases h with ⟨h1, h2⟩ | ⟨h1, h2⟩
      · exact unknown_ne_identity (h1.symm.trans ((hid s a ha).mpr h2))
      · exact unknown_ne_identity (h1.symm.trans ((hid s a ha).mp h2))

theorem paired_identity {g h : Graph} {m : List Sym} (hid : IdentityPaired g)
    (harcs : ∀ s, h.arcs s = g.arcs s ++ (g.arcs s).flatMap (identityAdds m)) : IdentityPaired h := by
  intro s a ha
  rw [harcs, List.mem_append, List.mem_flatMap] at ha
  rcases ha with ha | ⟨b, _, hb⟩
  · exact hid s a ha
  · obtain ⟨_, k, _, rfl⟩ := mem_identityAdds.mp hb
    exact Iff.rfl

/-- Harmonizing two transducers gives them the same alphabet, and each still describes the same sequences of concrete symbol
pairs with the same weights.  Missing: alphabets without the special symbols, see `C30_specials_violated`, and identity on one
side only, see `C30_refused`. -/
theorem C30_partial (g1 g2 : Graph) (hs1 : HasSpecials g1) (hs2 : HasSpecials g2) (hid1 : IdentityPaired g1)
    (hid2 : IdentityPaired g2) :
    ∃ g1' g2', harmonize g1 g2 = .ok (g1', g2') ∧ (∀ x, x ∈ g1'.alphabet ↔ x ∈ g2'.alphabet) ∧
      (∀ l w, Describes g1' l w ↔ Describes g1 l w) ∧ ∀ l w, Describes g2' l w ↔ Describes g2 l w := by
  unfold harmonize
  dsimp only
  generalize ho1 : setErase (setErase (setDiff (removeFlagsSet g1.alphabet) (removeFlagsSet g2.alphabet)) identity) unknown = m1
  generalize ho2 : setDiff (removeFlagsSet g2.alphabet) (removeFlagsSet g1.alphabet) = m2
  obtain ⟨h1, e1, a1, f1, r1⟩ := harmonizeIdentity_spec (m := m2) hid1
  obtain ⟨h2, e2, a2, f2, r2⟩ := harmonizeIdentity_spec (m := m1) hid2
  obtain ⟨k1, e3, a3, f3, r3⟩ := harmonizeUnknown_spec (m := m2) (paired_identity hid1 r1)
  obtain ⟨k2, e4, a4, f4, r4⟩ := harmonizeUnknown_spec (m := m1) (paired_identity hid2 r2)
  rw [e1, e2]
  simp only [Outcome.bind]
  rw [e3, e4]
  have mem1 : ∀ x, x ∈ m1 ↔ x ∈ g1.alphabet ∧ Outside g2.alphabet x := by
    intro x
    rw [← ho1, mem_setErase, mem_setErase, mem_setDiff, mem_removeFlagsSet, mem_removeFlagsSet]
    constructor
    · rintro ⟨⟨⟨⟨h1, h2, h3⟩, h4⟩, h5⟩, h6⟩
      have hn : x ∉ g2.alphabet := fun h => h4 ⟨h, h2, h3⟩
      exact ⟨h1, ⟨fun e => hn (e ▸ hs2.1), h6, h5, h2, h3⟩, hn⟩
    · rintro ⟨h1, ⟨_, h6, h5, h2, h3⟩, hn⟩
      exact ⟨⟨⟨⟨h1, h2, h3⟩, fun h => hn h.1⟩, h5⟩, h6⟩
  have mem2 : ∀ x, x ∈ m2 ↔ x ∈ g2.alphabet ∧ Outside g1.alphabet x := by
    intro x
    rw [← ho2, mem_setDiff, mem_removeFlagsSet, mem_removeFlagsSet]
    constructor
    · rintro ⟨⟨h1, h2, h3⟩, h4⟩
      have hn : x ∉ g1.alphabet := fun h => h4 ⟨h, h2, h3⟩
      exact ⟨h1, ⟨fun e => hn (e ▸ hs1.1), fun e => hn (e ▸ hs1.2.1), fun e => hn (e ▸ hs1.2.2), h2, h3⟩, hn⟩
    · rintro ⟨h1, ⟨_, _, _, h2, h3⟩, hn⟩
      exact ⟨⟨h1, h2, h3⟩, fun h => hn h.1⟩
  have al1 : ∀ x, x ∈ (k1.addSymbols k2.alphabet).alphabet ↔ x ∈ g1.alphabet ∨ x ∈ g2.alphabet := by
    intro x; rw [mem_alphabet_addSymbols, a3, a1, a4, a2]
  have al2 : ∀ x, x ∈ (k2.addSymbols (k1.addSymbols k2.alphabet).alphabet).alphabet ↔ x ∈ g1.alphabet ∨ x ∈ g2.alphabet := by
    intro x
    rw [mem_alphabet_addSymbols, al1, a4, a2]
    exact ⟨fun h => h.elim .inr id, .inr⟩
  refine ⟨_, _, rfl, fun x => by rw [al1, al2], ?_, ?_⟩
  · refine describes_expand (m := m2) ?_ ?_ (fun x hx => ((mem2 x).mp hx).2) ?_ hid1
    · intro s
      have : (k1.addSymbols k2.alphabet).arcs s = k1.arcs s := rfl
      rw [this, r3, r1]; rfl
    · intro s
      have : (k1.addSymbols k2.alphabet).final s = k1.final s := rfl
      rw [this, f3, f1]
    · intro x ho
      rw [al1, mem2]
      by_cases hx : x ∈ g1.alphabet
      · simp [hx]
      · simp [hx, Outside, ho]
  · refine describes_expand (m := m1) ?_ ?_ (fun x hx => ((mem1 x).mp hx).2) ?_ hid2
    · intro s
      have : (k2.addSymbols (k1.addSymbols k2.alphabet).alphabet).arcs s = k2.arcs s := rfl
      rw [this, r4, r2]; rfl
    · intro s
      have : (k2.addSymbols (k1.addSymbols k2.alphabet).alphabet).final s = k2.final s := rfl
      rw [this, f4, f2]
    · intro x ho
      rw [al2, mem1]
      by_cases hx : x ∈ g2.alphabet
      · simp [hx]
      · simp [hx, Outside, ho]

/-- If identity stands alone on the input side of a transition of the first transducer and the second one has a symbol that
the first one lacks, harmonization stops with an error. -/
theorem C30_refused (g1 g2 : Graph) (s : Nat) (a : Arc) (ha : a ∈ g1.arcs s) (hi : a.inp = identity) (ho : a.out ≠ identity)
    (x : Sym) (hx : x ∈ g2.alphabet) (hx' : Outside g1.alphabet x) : harmonize g1 g2 = .throws := by
  unfold harmonize harmonizeIdentity
  dsimp only
  have hm : x ∈ setDiff (removeFlagsSet g2.alphabet) (removeFlagsSet g1.alphabet) := by
    rw [mem_setDiff, mem_removeFlagsSet, mem_removeFlagsSet]
    exact ⟨⟨hx, hx'.1.2.2.2⟩, fun h => hx'.2 h.1⟩
  have hany : (g1.states.any fun l => l.any fun a => decide (a.inp = identity ∧ a.out ≠ identity)) = true :=
    any_arc.mpr ⟨s, a, ha, decide_eq_true ⟨hi, ho⟩⟩
  rw [if_neg (List.ne_nil_of_mem hm), if_pos hany]
  rfl

/-- Any one symbol, with `a` known. -/
def anyGraph : Graph :=
  { states := [[⟨1, identity, identity, 2⟩, ⟨1, unknown, unknown, 5⟩], []], finals := [(1, 1)],
    alphabet := [epsilon, unknown, identity, ['a']] }

/-- Only `b` and `c`. -/
def bcGraph : Graph :=
  { states := [[⟨1, ['b'], ['c'], 0⟩], []], finals := [(1, 0)], alphabet := [epsilon, unknown, identity, ['b'], ['c']] }

theorem anyGraph_ok : HasSpecials anyGraph ∧ IdentityPaired anyGraph := by
  refine ⟨by unfold HasSpecials; decide, ?_⟩
  intro s a ha
  match s, ha with
  | 0, ha => simp [anyGraph, Graph.arcs] at ha; rcases ha with rfl | rfl <;> decide
  | 1, ha => simp [anyGraph, Graph.arcs] at ha
  | n + 2, ha => simp [anyGraph, Graph.arcs] at ha

theorem bcGraph_ok : HasSpecials bcGraph ∧ IdentityPaired bcGraph := by
  refine ⟨by unfold HasSpecials; decide, ?_⟩
  intro s a ha
  match s, ha with
  | 0, ha => simp [bcGraph, Graph.arcs] at ha; subst ha; decide
  | 1, ha => simp [bcGraph, Graph.arcs] at ha
  | n + 2, ha => simp [bcGraph, Graph.arcs] at ha

/-- `b` is an ordinary symbol that `anyGraph` does not know, and `anyGraph` describes `b`:`b`. -/
theorem anyGraph_b : Describes anyGraph [(['b'], ['b'])] 3 :=
  ⟨1, 2, 1, .cons (a := ⟨1, identity, identity, 2⟩) (by simp [anyGraph, Graph.arcs])
    (.identity rfl rfl ⟨⟨by decide, by decide, by decide, by decide, by decide⟩, by decide⟩) (.nil 1), by decide, by omega⟩

example : ∃ g1' g2', harmonize anyGraph bcGraph = .ok (g1', g2') ∧ Describes g1' [(['b'], ['b'])] 3 ∧ ['b'] ∈ g1'.alphabet ∧
    (⟨1, ['b'], ['b'], 2⟩ : Arc) ∈ g1'.arcs 0 ∧ (⟨1, ['b'], ['c'], 5⟩ : Arc) ∈ g1'.arcs 0 := by
  obtain ⟨g1', g2', e, _, h, _⟩ := C30_partial anyGraph bcGraph anyGraph_ok.1 bcGraph_ok.1 anyGraph_ok.2 bcGraph_ok.2
  refine ⟨g1', g2', e, (h _ _).mpr anyGraph_b, ?_⟩
  have e' : harmonize anyGraph bcGraph = .ok
      ({ anyGraph with
          states := [[⟨1, identity, identity, 2⟩, ⟨1, unknown, unknown, 5⟩, ⟨1, ['b'], ['b'], 2⟩, ⟨1, ['c'], ['c'], 2⟩,
            ⟨1, ['b'], unknown, 5⟩, ⟨1, ['c'], unknown, 5⟩, ⟨1, unknown, ['b'], 5⟩, ⟨1, unknown, ['c'], 5⟩,
            ⟨1, ['c'], ['b'], 5⟩, ⟨1, ['b'], ['c'], 5⟩], []]
          alphabet := [['c'], ['b'], epsilon, unknown, identity, ['a']] },
        { bcGraph with alphabet := [['a'], epsilon, unknown, identity, ['b'], ['c']] }) := by decide +kernel
  rw [e'] at e
  injection e with e
  obtain ⟨rfl, rfl⟩ := Prod.mk.inj e
  exact ⟨by decide, by decide, by decide⟩

/-- `C30_refused` applies to a transducer with identity on the input side only. -/
example : harmonize { anyGraph with states := [[⟨1, identity, ['a'], 0⟩], []] } bcGraph = .throws :=
  C30_refused _ _ 0 ⟨1, identity, ['a'], 0⟩ (by simp [Graph.arcs]) rfl (by decide) ['b'] (by decide)
    ⟨⟨by decide, by decide, by decide, by decide, by decide⟩, by decide⟩

/-- `anyGraph` after `remove_symbol_from_alphabet` of epsilon. -/
def noEpsilonGraph : Graph := { anyGraph with alphabet := [unknown, identity, ['a']] }

theorem noEpsilonGraph_paired : IdentityPaired noEpsilonGraph := by
  intro s a ha
  have h := anyGraph_ok.2 s a
  unfold Graph.arcs noEpsilonGraph at ha
  exact h ha

/-- Without epsilon in one alphabet, harmonization takes it for a symbol that identity can stand for and adds an epsilon
transition: the transducer then describes the empty pair, which it did not before. -/
theorem C30_specials_violated : ∃ g1 g2 g1' g2' l w, IdentityPaired g1 ∧ IdentityPaired g2 ∧ HasSpecials g2 ∧
    harmonize g1 g2 = .ok (g1', g2') ∧ Describes g1' l w ∧ ¬ Describes g1 l w := by
  have e : harmonize noEpsilonGraph Graph.init = .ok
      ({ anyGraph with
          states := [[⟨1, identity, identity, 2⟩, ⟨1, unknown, unknown, 5⟩, ⟨1, epsilon, epsilon, 2⟩,
            ⟨1, epsilon, unknown, 5⟩, ⟨1, unknown, epsilon, 5⟩], []]
          alphabet := [epsilon, unknown, identity, ['a']] },
        { Graph.init with alphabet := [['a'], epsilon, unknown, identity] }) := by decide +kernel
  refine ⟨noEpsilonGraph, Graph.init, _, _, [(epsilon, epsilon)], 3, noEpsilonGraph_paired, ?_,
    ⟨by decide, by decide, by decide⟩, e, ?_, ?_⟩
  · intro s a ha
    match s, ha with
    | 0, ha => simp [Graph.init, Graph.arcs] at ha
    | n + 1, ha => simp [Graph.init, Graph.arcs] at ha
  · exact ⟨1, 2, 1, .cons (a := ⟨1, epsilon, epsilon, 2⟩) (by simp [Graph.arcs])
      (.itself (by decide) (by decide) (by decide) (by decide)) (.nil 1), by decide, by omega⟩
  · rintro ⟨q, v, f, hp, _, _⟩
    generalize hl : [((epsilon : Sym), (epsilon : Sym))] = l at hp
    cases hp with
    | nil => cases hl
    | cons ha hst _ =>
      obtain ⟨rfl, rfl⟩ := List.cons.inj hl
      simp [noEpsilonGraph, anyGraph, Graph.arcs] at ha
      rcases ha with rfl | rfl
      · generalize hpp : ((epsilon : Sym), (epsilon : Sym)) = pp at hst
        cases hst with
        | itself _ h => exact h rfl
        | identity _ _ h => exact h.1.1 (Prod.mk.inj hpp).1.symm
        | input h => revert h; decide
        | output h => revert h; decide
        | both h => revert h; decide
      · generalize hpp : ((epsilon : Sym), (epsilon : Sym)) = pp at hst
        cases hst with
        | itself h => exact h rfl
        | identity h => revert h; decide
        | input _ h => exact h rfl
        | output _ h => exact h rfl
        | both _ _ h => exact h.1.1 (Prod.mk.inj hpp).1.symm

end Hfst.Basic
