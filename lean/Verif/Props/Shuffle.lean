import Verif.Model.Shuffle
import Verif.Spec.Shuffle
import Verif.Props.TransducerCross

/-!
# C79: shuffle
-/
namespace Hfst.Trans
open Hfst.Basic Hfst.Lexc
open Graph

/-! ## Harmonization, transition by transition -/

theorem harmonize_expand {g h : Graph} (hg : Usual g) (hh : Usual h) :
    ∃ g' h' m₁ m₂, harmonize g h = .ok (g', h') ∧ (∀ s, g'.arcs s = expand m₂ (g.arcs s)) ∧
      (∀ s, h'.arcs s = expand m₁ (h.arcs s)) ∧ unknown ∉ m₁ ∧ unknown ∉ m₂ ∧ (∀ s, g'.final s = g.final s) ∧
      ∀ s, h'.final s = h.final s := by
  unfold harmonize
  dsimp only
  generalize ho1 : setErase (setErase (setDiff (removeFlagsSet g.alphabet) (removeFlagsSet h.alphabet)) identity) unknown = m₁
  generalize ho2 : setDiff (removeFlagsSet h.alphabet) (removeFlagsSet g.alphabet) = m₂
  have n1 : unknown ∉ m₁ := by
    rw [← ho1, mem_setErase]
    exact fun h => h.2 rfl
  have n2 : unknown ∉ m₂ := by
    rw [← ho2, mem_setDiff, mem_removeFlagsSet, mem_removeFlagsSet]
    exact fun h => h.2 ⟨hg.good.alpha.unk, h.1.2⟩
  obtain ⟨h1, e1, a1, f1, r1⟩ := harmonizeIdentity_spec (m := m₂) hg.paired
  obtain ⟨h2, e2, a2, f2, r2⟩ := harmonizeIdentity_spec (m := m₁) hh.paired
  obtain ⟨k1, e3, a3, f3, r3⟩ := harmonizeUnknown_spec (m := m₂) (paired_identity hg.paired r1)
  obtain ⟨k2, e4, a4, f4, r4⟩ := harmonizeUnknown_spec (m := m₁) (paired_identity hh.paired r2)
  rw [e1, e2]
  simp only [Outcome.bind]
  rw [e3, e4]
  refine ⟨_, _, m₁, m₂, rfl, fun s => ?_, fun s => ?_, n1, n2, fun s => ?_, fun s => ?_⟩
  · have : (k1.addSymbols k2.alphabet).arcs s = k1.arcs s := rfl
    rw [this, r3, r1]; rfl
  · have : (k2.addSymbols (k1.addSymbols k2.alphabet).alphabet).arcs s = k2.arcs s := rfl
    rw [this, r4, r2]; rfl
  · have : (k1.addSymbols k2.alphabet).final s = k1.final s := rfl
    rw [this, f3, f1]
  · have : (k2.addSymbols (k1.addSymbols k2.alphabet).alphabet).final s = k2.final s := rfl
    rw [this, f4, f2]

theorem expand_keeps {m : List Sym} {l : List Arc} {a : Arc} (h : a ∈ l) : a ∈ expand m l := by
  unfold expand
  simp [h]

theorem expand_recognizer {m : List Sym} {l : List Arc} (h : ∀ a ∈ l, a.inp = a.out ∧ a.inp ≠ unknown) (hm : unknown ∉ m) :
    ∀ a ∈ expand m l, a.inp = a.out ∧ a.inp ≠ unknown := by
  have h1 : ∀ a ∈ l ++ l.flatMap (identityAdds m), a.inp = a.out ∧ a.inp ≠ unknown := by
    intro a ha
    rcases List.mem_append.mp ha with ha | ha
    · exact h a ha
    · obtain ⟨b, _, hb⟩ := List.mem_flatMap.mp ha
      obtain ⟨_, k, hk, rfl⟩ := mem_identityAdds.mp hb
      exact ⟨rfl, fun e => hm (e ▸ hk)⟩
  intro a ha
  unfold expand at ha
  rcases List.mem_append.mp ha with ha | ha
  · exact h1 a ha
  · obtain ⟨b, hb, hc⟩ := List.mem_flatMap.mp ha
    obtain ⟨e1, e2⟩ := h1 b hb
    rcases mem_unknownAdds.mp hc with ⟨e, _⟩ | ⟨e, _⟩ | ⟨e, _⟩
    · exact absurd e e2
    · exact absurd (e1.trans e) e2
    · exact absurd e e2

theorem expand_closed {m : List Sym} {l : List Arc} (h : ∀ a ∈ l, a.inp ≠ unknown ∧ a.inp ≠ identity ∧ a.out ≠ unknown) :
    expand m l = l := by
  have h1 : l.flatMap (identityAdds m) = [] := by
    rw [List.flatMap_eq_nil_iff]
    intro a ha
    unfold identityAdds
    rw [if_neg (h a ha).2.1]
  unfold expand
  rw [h1, List.append_nil]
  have h2 : l.flatMap (unknownAdds m) = [] := by
    rw [List.flatMap_eq_nil_iff]
    intro a ha
    obtain ⟨e1, _, e2⟩ := h a ha
    unfold unknownAdds
    rw [if_neg e1, if_neg e2, if_neg fun e => e1 e.1]
    rfl
  rw [h2, List.append_nil]

/-! ## Coding symbols -/

/-- What `codeSymbols f` makes of a pair. -/
def coded (f : Sym → Sym) (p : Sym × Sym) : Sym × Sym :=
  if p.1 ≠ p.2 then p else if p.1 = epsilon ∨ p.1 = unknown then p else (f p.1, f p.1)

theorem codeSymbols_cases (f : Sym → Sym) (p : Sym × Sym) : (codeSymbols f p = none ∧ coded f p = p) ∨
    (codeSymbols f p = some [coded f p] ∧ coded f p = (f p.1, f p.1) ∧ p.1 = p.2 ∧ p.1 ≠ epsilon ∧ p.1 ≠ unknown) := by
  unfold codeSymbols coded
  by_cases h1 : p.1 ≠ p.2
  · rw [if_pos h1, if_pos h1]
    exact .inl ⟨rfl, rfl⟩
  · rw [if_neg h1, if_neg h1]
    by_cases h2 : p.1 = epsilon ∨ p.1 = unknown
    · rw [if_pos h2, if_pos h2]
      exact .inl ⟨rfl, rfl⟩
    · rw [if_neg h2, if_neg h2]
      exact .inr ⟨rfl, rfl, not_not.mp h1, fun e => h2 (.inl e), fun e => h2 (.inr e)⟩

theorem codeSymbols_getD (f : Sym → Sym) (p : Sym × Sym) : (codeSymbols f p).getD [p] = [coded f p] := by
  rcases codeSymbols_cases f p with ⟨h1, h2⟩ | ⟨h1, _⟩
  · rw [h1, h2]; rfl
  · rw [h1]; rfl

/-- `r` is `g` with the symbols coded by `f`. -/
structure Coded (f : Sym → Sym) (g r : Graph) : Prop where
  finals : r.finals = g.finals
  wf : WF r
  accepts : ∀ l' w, Accepts r l' w ↔ ∃ l, Accepts g l w ∧ l' = l.map (coded f)
  labels : ∀ p, HasLabel r p ↔ ∃ q, HasLabel g q ∧ p = coded f q
  alphabet : ∀ x, x ∈ r.alphabet ↔ x ∈ g.alphabet ∨
    ∃ p, HasLabel g p ∧ p.1 = p.2 ∧ p.1 ≠ epsilon ∧ p.1 ≠ unknown ∧ x = f p.1

theorem hasLabel_mem {g : Graph} {a : Arc} : a ∈ g.states.flatten → HasLabel g a.label := by
  intro h
  obtain ⟨s, hs⟩ := (mem_flatten_states g a).mp h
  exact ⟨s, a, hs, rfl⟩

theorem substFuncArcs_label {f : Sym → Sym} {l : List Arc} {a : Arc} (h : a ∈ substFuncArcs (codeSymbols f) l) :
    ∃ b ∈ l, a.label = coded f b.label := by
  unfold substFuncArcs at h
  rcases List.mem_append.mp h with h | h
  · obtain ⟨b, hb, rfl⟩ := List.mem_map.mp h
    refine ⟨b, hb, ?_⟩
    rcases codeSymbols_cases f b.label with ⟨h1, h2⟩ | ⟨h1, h2, _⟩
    · rw [h1, h2]
    · rw [h1]; rfl
  · obtain ⟨b, hb, h⟩ := List.mem_flatMap.mp h
    refine ⟨b, hb, ?_⟩
    rcases codeSymbols_cases f b.label with ⟨h1, h2⟩ | ⟨h1, h2, _⟩
    · rw [h1] at h
      cases h
    · rw [h1] at h
      obtain ⟨p, hp, rfl⟩ := List.mem_map.mp h
      rw [List.mem_singleton] at hp
      rw [← hp]; rfl

theorem substFuncArcs_mem {f : Sym → Sym} {l : List Arc} {b : Arc} (h : b ∈ l) :
    ∃ a ∈ substFuncArcs (codeSymbols f) l, a.label = coded f b.label := by
  refine ⟨_, List.mem_append_left _ (List.mem_map.mpr ⟨b, h, rfl⟩), ?_⟩
  rcases codeSymbols_cases f b.label with ⟨h1, h2⟩ | ⟨h1, h2, _⟩
  · rw [h1, h2]
  · rw [h1]; rfl

theorem code_spec {g : Graph} (hg : WF g) (f : Sym → Sym)
    (hf : ∀ p, HasLabel g p → p.1 = p.2 → p.1 ≠ epsilon → p.1 ≠ unknown → f p.1 ≠ []) :
    ∃ r, g.substituteFunc (codeSymbols f) = .ok r ∧ Coded f g r := by
  have hok : ∃ r, g.substituteFunc (codeSymbols f) = .ok r ∧ r.finals = g.finals ∧
      r.states = g.states.map (substFuncArcs (codeSymbols f)) ∧ r.alphabet = (g.states.flatten.flatMap fun a =>
        match codeSymbols f a.label with
        | some ps => ps.flatMap fun p => [p.1, p.2]
        | none => []).foldl setInsert g.alphabet := by
    unfold Graph.substituteFunc
    dsimp only
    rw [if_neg, if_neg]
    · exact ⟨_, rfl, rfl, rfl, rfl⟩
    · rw [Bool.not_eq_true, List.any_eq_false]
      intro a ha
      rcases codeSymbols_cases f a.label with ⟨h1, h2⟩ | ⟨h1, h2, h3, h4, h5⟩
      · rw [h1]; simp
      · have := hf _ (hasLabel_mem ha) h3 h4 h5
        rw [h1, h2]
        simp [isValidSymbol, this]
    · rw [Bool.not_eq_true, List.any_eq_false]
      intro a ha
      rcases codeSymbols_cases f a.label with ⟨h1, h2⟩ | ⟨h1, h2, h3, h4, h5⟩
      · rw [h1]; simp
      · rw [h1]; simp
  obtain ⟨r, e, h1, h2, h3⟩ := hok
  have harcs : ∀ s, r.arcs s = substFuncArcs (codeSymbols f) (g.arcs s) := by
    intro s
    have := arcs_map g (substFuncArcs (codeSymbols f)) rfl s r.alphabet
    unfold Graph.arcs at this ⊢
    rw [h2]
    exact this
  refine ⟨r, e, h1, WF.apply hg (.substituteFunc (codeSymbols f)) e, ?_, ?_, ?_⟩
  · intro l' w
    rw [C19_substituteFunc g r _ e]
    simp only [codeSymbols_getD, List.mem_singleton]
    refine exists_congr fun l => and_congr_right fun _ => ?_
    exact forall₂_map (coded f) l l'
  · intro p
    constructor
    · rintro ⟨s, a, ha, rfl⟩
      rw [harcs] at ha
      obtain ⟨b, hb, he⟩ := substFuncArcs_label ha
      exact ⟨b.label, ⟨s, b, hb, rfl⟩, he⟩
    · rintro ⟨_, ⟨s, b, hb, rfl⟩, rfl⟩
      obtain ⟨a, ha, he⟩ := substFuncArcs_mem (f := f) hb
      exact ⟨s, a, by rw [harcs]; exact ha, he⟩
  · intro x
    rw [h3, mem_foldl_setInsert, List.mem_flatMap, or_comm]
    refine or_congr_right ?_
    constructor
    · rintro ⟨a, ha, hx⟩
      rcases codeSymbols_cases f a.label with ⟨h4, _⟩ | ⟨h4, h5, h6, h7, h8⟩
      · rw [h4] at hx
        cases hx
      · rw [h4, h5] at hx
        exact ⟨a.label, hasLabel_mem ha, h6, h7, h8, by simpa using hx⟩
    · rintro ⟨_, ⟨s, a, ha, rfl⟩, h6, h7, h8, rfl⟩
      refine ⟨a, (mem_flatten_states g a).mpr ⟨s, ha⟩, ?_⟩
      rcases codeSymbols_cases f a.label with ⟨h4, h5⟩ | ⟨h4, h5, _⟩
      · unfold codeSymbols at h4
        rw [if_neg (not_not.mpr h6), if_neg (by simp [h7, h8])] at h4
        cases h4
      · rw [h4, h5]
        simp

/-! ## Free insertion and epsilon -/

theorem inserted_mem {ps l l' : List (Sym × Sym)} {n : Nat} (h : Inserted ps l l' n) {p : Sym × Sym} (hp : p ∈ l') : p ∈ l ∨ p ∈ ps := by
  induction h with
  | nil => exact .inl hp
  | keep q _ ih =>
    rcases List.mem_cons.mp hp with rfl | hp
    · exact .inl (by simp)
    · exact (ih hp).imp (List.mem_cons_of_mem _) id
  | ins hq _ ih =>
    rcases List.mem_cons.mp hp with rfl | hp
    · exact .inr hq
    · exact ih hp

theorem inserted_strip {ps : List (Sym × Sym)} (hps : ∀ p ∈ ps, p ≠ (epsilon, epsilon)) {l l' : List (Sym × Sym)} {n : Nat}
    (h : Inserted ps l l' n) : Inserted ps (strip l) (strip l') n := by
  induction h with
  | nil => exact .nil
  | keep p _ ih =>
    by_cases hp : p = (epsilon, epsilon)
    · rw [hp, strip_cons_eps, strip_cons_eps]
      exact ih
    · rw [strip_cons hp, strip_cons hp]
      exact .keep p ih
  | @ins l l' k p hp _ ih =>
    rw [strip_cons (hps p hp)]
    exact .ins hp ih

theorem inserted_unstrip {ps : List (Sym × Sym)} (hps : ∀ p ∈ ps, p ≠ (epsilon, epsilon)) (m : List (Sym × Sym))
    {k : List (Sym × Sym)} {n : Nat} (h : Inserted ps (strip m) k n) : ∃ l', Inserted ps m l' n ∧ strip l' = k := by
  induction m generalizing k n with
  | nil =>
    refine ⟨k, h, strip_id fun p hp => ?_⟩
    rcases inserted_mem h hp with h1 | h1
    · exact absurd h1 (by simp [strip])
    · exact hps p h1
  | cons p m ih =>
    by_cases hp : p = (epsilon, epsilon)
    · rw [hp, strip_cons_eps] at h
      obtain ⟨l', h1, h2⟩ := ih h
      exact ⟨p :: l', .keep p h1, by rw [hp, strip_cons_eps, h2]⟩
    · rw [strip_cons hp] at h
      generalize hM : p :: strip m = M at h
      induction h with
      | nil => cases hM
      | keep q h' =>
        obtain ⟨rfl, rfl⟩ := List.cons.inj hM
        obtain ⟨l', h1, h2⟩ := ih h'
        exact ⟨p :: l', .keep p h1, by rw [strip_cons hp, h2]⟩
      | @ins l l'' n' q hq _ ih' =>
        obtain ⟨l', h1, h2⟩ := ih' hM
        exact ⟨q :: l', .ins hq h1, by rw [strip_cons (hps q hq), h2]⟩

/-! ## One side -/

/-- A pair with a tagged symbol on both sides. -/
def tag (f : Sym → Sym) (p : Sym × Sym) : Sym × Sym := (f p.1, f p.1)

/-- Tags make ordinary symbols. -/
structure Tag (f : Sym → Sym) : Prop where
  nonempty : ∀ x, f x ≠ []
  eps : ∀ x, f x ≠ epsilon
  unk : ∀ x, f x ≠ unknown
  idn : ∀ x, f x ≠ identity

theorem tagFirst : Tag encodeFirst := by
  have h : ∀ x y : Sym, y[1]? ≠ some '1' → encodeFirst x ≠ y := fun x y hy e => hy (e ▸ rfl)
  exact ⟨fun x => h x _ (by decide), fun x => h x _ (by decide), fun x => h x _ (by decide), fun x => h x _ (by decide)⟩

theorem tagSecond : Tag encodeSecond := by
  have h : ∀ x y : Sym, y[1]? ≠ some '2' → encodeSecond x ≠ y := fun x y hy e => hy (e ▸ rfl)
  exact ⟨fun x => h x _ (by decide), fun x => h x _ (by decide), fun x => h x _ (by decide), fun x => h x _ (by decide)⟩

theorem larger_removeSymbols (g : Graph) (xs : List Sym) : Larger (g.removeSymbols xs) g := by
  refine ⟨rfl, rfl, fun x hx => ?_⟩
  simp only [Graph.removeSymbols] at hx
  rw [mem_foldl_setErase] at hx
  exact hx.1

theorem recognizer_label {g : Graph} (h : Recognizer g) {p : Sym × Sym} (hp : HasLabel g p) : p.1 = p.2 ∧ p.1 ≠ unknown := by
  obtain ⟨s, a, ha, rfl⟩ := hp
  exact h s a ha

theorem recognizer_eps {g : Graph} (h : Recognizer g) {p : Sym × Sym} (hp : HasLabel g p) : p.1 = epsilon ↔ p = (epsilon, epsilon) := by
  have := (recognizer_label h hp).1
  obtain ⟨x, y⟩ := p
  dsimp only at this ⊢
  subst this
  simp

theorem coded_tag {g : Graph} (h : Recognizer g) (f : Sym → Sym) {p : Sym × Sym} (hp : HasLabel g p) (he : p ≠ (epsilon, epsilon)) :
    coded f p = tag f p := by
  obtain ⟨h1, h2⟩ := recognizer_label h hp
  unfold coded tag
  rw [if_neg (not_not.mpr h1), if_neg]
  rintro (e | e)
  · exact he ((recognizer_eps h hp).mp e)
  · exact h2 e

theorem coded_eps (f : Sym → Sym) : coded f (epsilon, epsilon) = (epsilon, epsilon) := by
  unfold coded
  simp

theorem strip_coded {g : Graph} (h : Recognizer g) {f : Sym → Sym} (hf : Tag f) (l : List (Sym × Sym)) (hl : ∀ p ∈ l, HasLabel g p) :
    strip (l.map (coded f)) = (strip l).map (tag f) := by
  induction l with
  | nil => rfl
  | cons p l ih =>
    have ih := ih fun q hq => hl q (by simp [hq])
    rw [List.map_cons]
    by_cases hp : p = (epsilon, epsilon)
    · rw [hp, coded_eps, strip_cons_eps, strip_cons_eps, ih]
    · rw [coded_tag h f (hl p (by simp)) hp, strip_cons hp, strip_cons, ih, List.map_cons]
      intro e
      exact hf.eps p.1 (congrArg Prod.fst e)

theorem mem_pairsOf {al : List Sym} {p : Sym × Sym} : p ∈ pairsOf al ↔ p.1 = p.2 ∧ p.1 ∈ al := by
  unfold pairsOf
  rw [List.mem_map]
  constructor
  · rintro ⟨x, hx, rfl⟩
    exact ⟨rfl, hx⟩
  · rintro ⟨h1, h2⟩
    exact ⟨p.1, h2, Prod.ext rfl h1⟩

theorem mem_convert {g : Graph} {x : Sym} : x ∈ (convert g).alphabet ↔ x ∈ g.alphabet ∨ x = epsilon ∨ x = unknown ∨ x = identity := by
  unfold convert
  rw [mem_alphabet_addSymbols]
  simp

theorem larger_convert (g : Graph) : Larger g (convert g) := larger_addSymbols g _

/-- What has been done to one of the arguments before the intersection. -/
structure Side (f : Sym → Sym) (g a : Graph) : Prop where
  alphabet : ∀ x, x ∈ a.alphabet ↔ ∃ p, HasLabel g p ∧ p.1 ≠ epsilon ∧ x = f p.1
  insert : ∀ al : List Sym, (∀ x ∈ al, ∃ k y, Tag k ∧ x = k y) → ∃ a', a.insertFreely (pairsOf al) 0 = .ok a' ∧
    Usual (convert a') ∧ Closed (convert a') ∧
    (∀ x, x ∈ (convert a').alphabet ↔ (x ∈ a.alphabet ∨ x ∈ al) ∨ x = epsilon ∨ x = unknown ∨ x = identity) ∧
    (∀ p, HasLabel (convert a') p → p = (epsilon, epsilon) ∨ p ∈ pairsOf al ∨ p ∈ pairsOf a.alphabet) ∧
    ∀ k w, Cost (convert a') k w ↔ ∃ l n, Cost g l w ∧ Inserted (pairsOf al) (l.map (tag f)) k n

theorem side_spec {g : Graph} (hg : Usual g) (hr : Recognizer g) {f : Sym → Sym} (hf : Tag f) (hc : ∀ x ∈ g.alphabet, ∀ y, x ≠ f y) :
    ∃ a, encodeGraph f g = .ok a ∧ Side f g a := by
  obtain ⟨r, e, c⟩ := code_spec hg.good.wf f fun p _ _ _ _ => hf.nonempty p.1
  have he : encodeGraph f g = .ok (r.removeSymbols g.alphabet) := by
    unfold encodeGraph
    rw [e]; rfl
  have hl := larger_removeSymbols r g.alphabet
  generalize ha : r.removeSymbols g.alphabet = a at he hl
  have hal : ∀ x, x ∈ a.alphabet ↔ ∃ p, HasLabel g p ∧ p.1 ≠ epsilon ∧ x = f p.1 := by
    intro x
    rw [← ha]
    simp only [Graph.removeSymbols]
    rw [mem_foldl_setErase, c.alphabet]
    constructor
    · rintro ⟨h | ⟨p, h1, _, h2, _, h3⟩, h4⟩
      · exact absurd h h4
      · exact ⟨p, h1, h2, h3⟩
    · rintro ⟨p, h1, h2, rfl⟩
      obtain ⟨h3, h4⟩ := recognizer_label hr h1
      exact ⟨.inr ⟨p, h1, h3, h2, h4, rfl⟩, fun hx => hc _ hx _ rfl⟩
  have hlab : ∀ p, HasLabel a p → p = (epsilon, epsilon) ∨ p ∈ pairsOf a.alphabet := by
    intro p hp
    obtain ⟨q, hq, rfl⟩ := (c.labels p).mp ((hl.label p).mpr hp)
    by_cases hq0 : q = (epsilon, epsilon)
    · rw [hq0, coded_eps]
      exact .inl rfl
    · rw [coded_tag hr f hq hq0]
      exact .inr (mem_pairsOf.mpr ⟨rfl, (hal _).mpr ⟨q, hq, fun e => hq0 ((recognizer_eps hr hq).mp e), rfl⟩⟩)
  have hwf : WF a := by
    rw [← ha]
    exact ⟨c.wf.nonempty, c.wf.targets, c.wf.finals⟩
  refine ⟨a, he, hal, fun al htag => ?_⟩
  have hps : ∀ p ∈ pairsOf al, p ≠ (epsilon, epsilon) := by
    intro p hp e
    obtain ⟨_, h2⟩ := mem_pairsOf.mp hp
    obtain ⟨k, y, hk, h3⟩ := htag _ h2
    exact hk.eps y (h3.symm.trans (congrArg Prod.fst e))
  have hins : ∃ a', a.insertFreely (pairsOf al) 0 = .ok a' := by
    unfold Graph.insertFreely
    rw [if_neg]
    · exact ⟨_, rfl⟩
    · rw [Bool.not_eq_true, List.any_eq_false]
      intro p hp
      obtain ⟨h1, h2⟩ := mem_pairsOf.mp hp
      obtain ⟨k, y, hk, h3⟩ := htag _ h2
      have := hk.nonempty y
      rw [← h3] at this
      simp [isValidSymbol, ← h1, this]
  obtain ⟨a', ea⟩ := hins
  have hal' : ∀ x, x ∈ a'.alphabet ↔ x ∈ a.alphabet ∨ x ∈ al := by
    intro x
    have := ea
    unfold Graph.insertFreely at this
    split at this
    · cases this
    · cases this
      simp only [Graph.addSymbolPairs]
      rw [mem_foldl_pairs]
      constructor
      · rintro (⟨p, hp, h⟩ | h)
        · obtain ⟨h1, h2⟩ := mem_pairsOf.mp hp
          rcases h with rfl | rfl
          · exact .inr h2
          · exact .inr (h1 ▸ h2)
        · exact .inl h
      · rintro (h | h)
        · exact .inr h
        · exact .inl ⟨(x, x), mem_pairsOf.mpr ⟨rfl, h⟩, .inl rfl⟩
  have hfin : a'.finals = a.finals := by
    have := ea
    unfold Graph.insertFreely at this
    split at this
    · cases this
    · cases this; rfl
  have hlab' : ∀ p, HasLabel a' p → p = (epsilon, epsilon) ∨ p ∈ pairsOf al ∨ p ∈ pairsOf a.alphabet := by
    rintro p ⟨s, b, hb, rfl⟩
    rw [(insertFreely_arcs ea s).1] at hb
    split at hb
    · rcases List.mem_append.mp hb with hb | hb
      · exact (hlab _ ⟨s, b, hb, rfl⟩).imp id .inr
      · obtain ⟨q, hq, rfl⟩ := List.mem_map.mp hb
        exact .inr (.inl hq)
    · cases hb
  have hL := larger_convert a'
  have hnm : ∀ x, x ∈ a.alphabet ∨ x ∈ al → x ≠ [] ∧ x ≠ unknown ∧ x ≠ identity := by
    rintro x (hx | hx)
    · obtain ⟨p, _, _, rfl⟩ := (hal x).mp hx
      exact ⟨hf.nonempty _, hf.unk _, hf.idn _⟩
    · obtain ⟨k, y, hk, rfl⟩ := htag x hx
      exact ⟨hk.nonempty _, hk.unk _, hk.idn _⟩
  have hpair : ∀ p, HasLabel a' p → p.1 = p.2 ∧ p.1 ≠ unknown ∧ p.1 ≠ identity ∧ (p.1 ∈ a'.alphabet ∨ p.1 = epsilon) := by
    intro p hp
    rcases hlab' p hp with rfl | hp | hp
    · exact ⟨rfl, epsilon_ne_unknown, epsilon_ne_identity, .inr rfl⟩
    · obtain ⟨h1, h2⟩ := mem_pairsOf.mp hp
      exact ⟨h1, (hnm _ (.inr h2)).2.1, (hnm _ (.inr h2)).2.2, .inl ((hal' _).mpr (.inr h2))⟩
    · obtain ⟨h1, h2⟩ := mem_pairsOf.mp hp
      exact ⟨h1, (hnm _ (.inl h2)).2.1, (hnm _ (.inl h2)).2.2, .inl ((hal' _).mpr (.inl h2))⟩
  have hclosed : Closed (convert a') := by
    intro p hp
    obtain ⟨h1, h2, h3, _⟩ := hpair p ((hL.label p).mp hp)
    exact ⟨h2, h3, h1 ▸ h2, h1 ▸ h3⟩
  have hwf' : WF a' := WF.insertFreely hwf ea
  refine ⟨a', ea, ⟨⟨⟨hwf'.nonempty, hwf'.targets, hwf'.finals⟩, ⟨?_, ?_, ?_, ?_⟩, ?_⟩, ?_, ?_⟩, hclosed, ?_, ?_, ?_⟩
  · intro s b hb
    obtain ⟨h1, _, _, h4⟩ := hpair b.label ⟨s, b, hb, rfl⟩
    have h5 : b.inp ∈ (convert a').alphabet := mem_convert.mpr (h4.imp id .inl)
    have h6 : b.inp = b.out := h1
    exact ⟨h5, h6 ▸ h5⟩
  · exact mem_convert.mpr (.inr (.inl rfl))
  · exact mem_convert.mpr (.inr (.inr (.inl rfl)))
  · exact mem_convert.mpr (.inr (.inr (.inr rfl)))
  · have : (convert a').finals = g.finals := by
      have h1 : a.finals = g.finals := by rw [← ha]; exact c.finals
      rw [← h1, ← hfin]; rfl
    unfold FinalMap
    rw [this]
    exact hg.good.finals
  · refine paired_of_labels fun p hp => ?_
    obtain ⟨_, h2, _, h4⟩ := hclosed p hp
    exact ⟨fun e => absurd e h2, fun e => absurd e h4⟩
  · rw [mem_convert, hal']
    rintro (h | h | h | h)
    · exact (hnm _ h).1 rfl
    · exact absurd h (by decide)
    · exact absurd h (by decide)
    · exact absurd h (by decide)
  · intro x
    rw [mem_convert, hal']
  · exact fun p hp => hlab' p ((hL.label p).mp hp)
  · intro k w
    have hacc : ∀ l w, Accepts a l w ↔ ∃ l₀, Accepts g l₀ w ∧ l = l₀.map (coded f) := by
      intro l w
      rw [← hl.accepts, c.accepts]
    unfold Cost
    simp only [hL.accepts]
    constructor
    · rintro ⟨l', w', h1, rfl, h2⟩
      obtain ⟨m, w₀, n, h3, h4, h5⟩ := (C22_insertFreely a a' hwf _ 0 ea l' w').mp h1
      obtain ⟨l₀, h6, rfl⟩ := (hacc _ _).mp h3
      refine ⟨strip l₀, n, ⟨l₀, w₀, h6, rfl, by omega⟩, ?_⟩
      have := inserted_strip hps h4
      obtain ⟨q, v, z, hp, _⟩ := h6
      rwa [strip_coded hr hf l₀ fun p hp' => path_labels hp p hp'] at this
    · rintro ⟨_, n, ⟨l₀, w₀, h6, rfl, hw⟩, h4⟩
      have hp : ∀ p ∈ l₀, HasLabel g p := by
        obtain ⟨q, v, z, hp, _⟩ := h6
        exact fun p hp' => path_labels hp p hp'
      rw [← strip_coded hr hf l₀ hp] at h4
      obtain ⟨l', h7, h8⟩ := inserted_unstrip hps _ h4
      exact ⟨l', w₀, (C22_insertFreely a a' hwf _ 0 ea l' w₀).mpr ⟨_, w₀, n, (hacc _ _).mpr ⟨l₀, h6, rfl⟩, h7, by omega⟩, h8, hw⟩

end Hfst.Trans
