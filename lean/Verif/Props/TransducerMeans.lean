import Verif.Spec.Transducer
import Verif.Props.LexcSplice

/-!
# Meaning and literal acceptance
-/
namespace Hfst.Trans
open Hfst.Basic Hfst.Lexc
open Hfst.Basic.Graph (init)

/-! ## Fresh symbols -/

theorem ordinary_replicate (n : Nat) : Ordinary (List.replicate (n + 1) 'a') := by
  have hne : ∀ (x : Sym) (c : Char) (t : List Char), c ≠ 'a' → x = c :: t → List.replicate (n + 1) 'a' ≠ x := by
    intro x c t hc hx e
    rw [hx, List.replicate_succ] at e
    exact hc (List.cons.inj e).1.symm
  have hp : ∀ (y : List Char) (c : Char) (t : List Char), c ≠ 'a' → y = c :: t →
      y.isPrefixOf (List.replicate (n + 1) 'a') = false := by
    intro y c t hc hy
    rw [hy, List.replicate_succ, List.isPrefixOf]
    simp [hc]
  refine ⟨hne _ '@' _ (by decide) rfl, hne _ '@' _ (by decide) rfl, hne _ '@' _ (by decide) rfl, ?_, ?_⟩
  · have h2 : StdString.charAt (List.replicate (n + 1) 'a') 2 ≠ some '.' := by
      unfold StdString.charAt
      rw [List.getElem?_replicate]
      split <;> simp
    unfold Flags.isDiacritic
    rw [if_pos h2]
    simp
  · unfold isPmatchSpecial
    split
    · rfl
    · rw [if_neg, if_neg]
      · unfold isList
        rw [hp "@PMATCH".toList '@' _ (by decide) rfl, hp ['@', 'L', '.'] '@' _ (by decide) rfl,
          hp ['@', 'X', '.'] '@' _ (by decide) rfl]
        rfl
      · rintro (h | h | h | h | h | h)
        · unfold isInsertion at h
          rw [hp ['@', 'I', '.'] '@' _ (by decide) rfl] at h
          simp at h
        all_goals exact hne _ '@' _ (by decide) rfl h
      · rintro (h | h)
        all_goals exact hne _ '@' _ (by decide) rfl h

theorem exists_outside (al : List Sym) : ∃ x, Outside al x := by
  have hb : ∃ n, ∀ x ∈ al, x.length ≤ n := by
    induction al with
    | nil => exact ⟨0, by simp⟩
    | cons y al ih =>
      obtain ⟨n, hn⟩ := ih
      refine ⟨max n y.length, fun x hx => ?_⟩
      rcases List.mem_cons.mp hx with rfl | hx
      · exact Nat.le_max_right ..
      · exact Nat.le_trans (hn x hx) (Nat.le_max_left ..)
  obtain ⟨n, hn⟩ := hb
  refine ⟨List.replicate (n + 1) 'a', ordinary_replicate n, fun h => ?_⟩
  have := hn _ h
  rw [List.length_replicate] at this
  omega

theorem exists_outside_ne (al xs : List Sym) : ∃ x, Outside al x ∧ x ∉ xs := by
  obtain ⟨x, h1, h2⟩ := exists_outside (al ++ xs)
  rw [List.mem_append, not_or] at h2
  exact ⟨x, ⟨h1, h2.1⟩, h2.2⟩

/-! ## Pairs -/

/-- The pair `p` stands for the concrete pair `q`. -/
def St (al : List Sym) (p q : Sym × Sym) : Prop := Stands al p.1 p.2 q

theorem epsilon_ne_unknown : epsilon ≠ unknown := by decide
theorem epsilon_ne_identity : epsilon ≠ identity := by decide

theorem st_eps {al : List Sym} {p : Sym × Sym} : St al p (epsilon, epsilon) ↔ p = (epsilon, epsilon) := by
  constructor
  · intro h
    obtain ⟨i, o⟩ := p
    unfold St at h
    dsimp only at h
    generalize hq : (epsilon, epsilon) = q at h
    cases h with
    | itself h1 h2 h3 h4 => rw [← hq]
    | identity h1 h2 h3 => exact absurd (congrArg Prod.fst hq).symm h3.1.1
    | input h1 h2 h3 h4 => exact absurd (congrArg Prod.fst hq).symm h4.1.1
    | output h1 h2 h3 h4 => exact absurd (congrArg Prod.snd hq).symm h4.1.1
    | both h1 h2 h3 h4 h5 => exact absurd (congrArg Prod.fst hq).symm h3.1.1
  · rintro rfl
    exact .itself epsilon_ne_unknown epsilon_ne_identity epsilon_ne_unknown epsilon_ne_identity

theorem st_from_eps {al : List Sym} {q : Sym × Sym} : St al (epsilon, epsilon) q ↔ q = (epsilon, epsilon) := by
  constructor
  · intro h
    unfold St at h
    cases h with
    | itself => rfl
    | identity h1 => exact absurd h1 epsilon_ne_identity
    | input h1 => exact absurd h1 epsilon_ne_unknown
    | output h1 => exact absurd h1 epsilon_ne_unknown
    | both h1 => exact absurd h1 epsilon_ne_unknown
  · rintro rfl
    exact .itself epsilon_ne_unknown epsilon_ne_identity epsilon_ne_unknown epsilon_ne_identity

theorem Outside.congr {al al' : List Sym} (h : ∀ x, x ∈ al ↔ x ∈ al') {x : Sym} (hx : Outside al x) : Outside al' x :=
  ⟨hx.1, fun h' => hx.2 ((h x).mpr h')⟩

theorem St.congr {al al' : List Sym} (h : ∀ x, x ∈ al ↔ x ∈ al') {p q : Sym × Sym} (hs : St al p q) : St al' p q := by
  unfold St at *
  cases hs with
  | itself h1 h2 h3 h4 => exact .itself h1 h2 h3 h4
  | identity h1 h2 h3 => exact .identity h1 h2 (Outside.congr h h3)
  | input h1 h2 h3 h4 => exact .input h1 h2 h3 (Outside.congr h h4)
  | output h1 h2 h3 h4 => exact .output h1 h2 h3 (Outside.congr h h4)
  | both h1 h2 h3 h4 h5 => exact .both h1 h2 (Outside.congr h h3) (Outside.congr h h4) h5

/-- What a pair stands for, side by side. -/
theorem st_iff {al : List Sym} {i o x y : Sym} : St al (i, o) (x, y) ↔
    (i = identity ∧ o = identity ∧ x = y ∧ Outside al x) ∨
    (i ≠ identity ∧ o ≠ identity ∧ (i = unknown ∧ Outside al x ∨ i ≠ unknown ∧ x = i) ∧
      (o = unknown ∧ Outside al y ∨ o ≠ unknown ∧ y = o) ∧ (i = unknown → o = unknown → x ≠ y)) := by
  unfold St
  dsimp only
  constructor
  · intro h
    generalize hq : (x, y) = q at h
    cases h with
    | itself h1 h2 h3 h4 => cases hq; exact .inr ⟨h2, h4, .inr ⟨h1, rfl⟩, .inr ⟨h3, rfl⟩, fun h => absurd h h1⟩
    | identity h1 h2 h3 => cases hq; exact .inl ⟨h1, h2, rfl, h3⟩
    | input h1 h2 h3 h4 =>
      cases hq; exact .inr ⟨h1 ▸ unknown_ne_identity, h3, .inl ⟨h1, h4⟩, .inr ⟨h2, rfl⟩, fun _ h => absurd h h2⟩
    | output h1 h2 h3 h4 =>
      cases hq; exact .inr ⟨h3, h1 ▸ unknown_ne_identity, .inr ⟨h2, rfl⟩, .inl ⟨h1, h4⟩, fun h => absurd h h2⟩
    | both h1 h2 h3 h4 h5 =>
      cases hq
      exact .inr ⟨h1 ▸ unknown_ne_identity, h2 ▸ unknown_ne_identity, .inl ⟨h1, h3⟩, .inl ⟨h2, h4⟩, fun _ _ => h5⟩
  · rintro (⟨h1, h2, rfl, h3⟩ | ⟨h1, h2, ⟨h3, h4⟩ | ⟨h3, rfl⟩, ⟨h5, h6⟩ | ⟨h5, rfl⟩, h7⟩)
    · exact .identity h1 h2 h3
    · exact .both h3 h5 h4 h6 (h7 h3 h5)
    · exact .input h3 h5 h2 h4
    · exact .output h5 h3 h1 h6
    · exact .itself h3 h1 h5 h2

/-- A concrete pair determines the pair of an alphabet that stands for it. -/
theorem st_unique {al : List Sym} {p q r : Sym × Sym} (hp : p.1 ∈ al ∧ p.2 ∈ al) (hq : q.1 ∈ al ∧ q.2 ∈ al)
    (h : St al p r) (h' : St al q r) : p = q := by
  obtain ⟨i, o⟩ := p
  obtain ⟨i', o'⟩ := q
  obtain ⟨x, y⟩ := r
  rw [st_iff] at h h'
  dsimp only at hp hq
  rcases h with ⟨h1, h2, h3, h4⟩ | ⟨h1, h2, h3, h4, h5⟩ <;> rcases h' with ⟨k1, k2, k3, k4⟩ | ⟨k1, k2, k3, k4, k5⟩
  · rw [h1, h2, k1, k2]
  · exfalso
    subst h3
    rcases k3 with ⟨k3, k3'⟩ | ⟨k3, k3'⟩
    · rcases k4 with ⟨k4, k4'⟩ | ⟨k4, k4'⟩
      · exact k5 k3 k4 rfl
      · exact h4.2 (k4' ▸ hq.2)
    · exact h4.2 (k3' ▸ hq.1)
  · exfalso
    subst k3
    rcases h3 with ⟨k3, k3'⟩ | ⟨k3, k3'⟩
    · rcases h4 with ⟨h4, h4'⟩ | ⟨h4, h4'⟩
      · exact h5 k3 h4 rfl
      · exact k4.2 (h4' ▸ hp.2)
    · exact k4.2 (k3' ▸ hp.1)
  · have hi : i = i' := by
      rcases h3 with ⟨a, b⟩ | ⟨a, b⟩ <;> rcases k3 with ⟨c, d⟩ | ⟨c, d⟩
      · rw [a, c]
      · exact absurd (d ▸ hq.1) b.2
      · exact absurd (b ▸ hp.1) d.2
      · rw [← b, ← d]
    have ho : o = o' := by
      rcases h4 with ⟨a, b⟩ | ⟨a, b⟩ <;> rcases k4 with ⟨c, d⟩ | ⟨c, d⟩
      · rw [a, c]
      · exact absurd (d ▸ hq.2) b.2
      · exact absurd (b ▸ hp.2) d.2
      · rw [← b, ← d]
    rw [hi, ho]

/-- Every pair in which identity is on both sides or on none stands for something. -/
theorem st_exists (al : List Sym) {p : Sym × Sym} (hp : p.1 = identity ↔ p.2 = identity) : ∃ q, St al p q := by
  obtain ⟨i, o⟩ := p
  dsimp only at hp
  obtain ⟨x, hx⟩ := exists_outside al
  obtain ⟨y, hy, hne⟩ := exists_outside_ne al [x]
  by_cases hi : i = identity
  · exact ⟨(x, x), st_iff.mpr (.inl ⟨hi, hp.mp hi, rfl, hx⟩)⟩
  · have ho : o ≠ identity := fun h => hi (hp.mpr h)
    refine ⟨(if i = unknown then x else i, if o = unknown then y else o), st_iff.mpr (.inr ⟨hi, ho, ?_, ?_, ?_⟩)⟩
    · by_cases h : i = unknown
      · exact .inl ⟨h, by rw [if_pos h]; exact hx⟩
      · exact .inr ⟨h, by rw [if_neg h]⟩
    · by_cases h : o = unknown
      · exact .inl ⟨h, by rw [if_pos h]; exact hy⟩
      · exact .inr ⟨h, by rw [if_neg h]⟩
    · intro h1 h2 e
      rw [if_pos h1, if_pos h2] at e
      exact hne (by simp [e])

/-! ## Sequences -/

theorem forall₂_strip {al : List Sym} {k l : List (Sym × Sym)} (h : List.Forall₂ (St al) k l) :
    List.Forall₂ (St al) (strip k) (strip l) := by
  induction h with
  | nil => exact .nil
  | @cons p q k l hpq _ ih =>
    by_cases hp : p = (epsilon, epsilon)
    · have hq := st_from_eps.mp (hp ▸ hpq)
      rw [hp, hq, strip_cons_eps, strip_cons_eps]
      exact ih
    · have hq : q ≠ (epsilon, epsilon) := fun h => hp (st_eps.mp (h ▸ hpq))
      rw [strip_cons hp, strip_cons hq]
      exact .cons hpq ih

theorem forall₂_unstrip {al : List Sym} {k l : List (Sym × Sym)} (h : List.Forall₂ (St al) (strip k) l) :
    ∃ l', List.Forall₂ (St al) k l' ∧ strip l' = l := by
  induction k generalizing l with
  | nil => cases h; exact ⟨[], .nil, rfl⟩
  | cons p k ih =>
    by_cases hp : p = (epsilon, epsilon)
    · rw [hp, strip_cons_eps] at h
      obtain ⟨l', h1, h2⟩ := ih h
      exact ⟨(epsilon, epsilon) :: l', .cons (st_eps.mpr hp) h1, by rw [strip_cons_eps, h2]⟩
    · rw [strip_cons hp] at h
      cases h with
      | @cons _ q _ l hpq h =>
        obtain ⟨l', h1, h2⟩ := ih h
        have hq : q ≠ (epsilon, epsilon) := fun h => hp (st_eps.mp (h ▸ hpq))
        exact ⟨q :: l', .cons hpq h1, by rw [strip_cons hq, h2]⟩

theorem concretePath_iff {g : Graph} {s q : Nat} {l : List (Sym × Sym)} {w : Int} :
    ConcretePath g s l w q ↔ ∃ k, Path g s k w q ∧ List.Forall₂ (St g.alphabet) k l := by
  constructor
  · intro h
    induction h with
    | nil s => exact ⟨[], .nil s, .nil⟩
    | @cons s q a p l w ha hs _ ih =>
      obtain ⟨k, h1, h2⟩ := ih
      exact ⟨(a.inp, a.out) :: k, .cons ha h1, .cons hs h2⟩
  · rintro ⟨k, h, hf⟩
    induction h generalizing l with
    | nil s => cases hf; exact .nil s
    | cons ha _ ih =>
      cases hf with
      | cons h1 h2 => exact .cons ha h1 (ih h2)

theorem means_iff {g : Graph} {l : List (Sym × Sym)} {w : Int} :
    Means g l w ↔ ∃ k, Cost g k w ∧ List.Forall₂ (St g.alphabet) k l := by
  constructor
  · rintro ⟨l', w', ⟨q, v, f, hp, hf, rfl⟩, rfl, hw⟩
    obtain ⟨k, h1, h2⟩ := concretePath_iff.mp hp
    exact ⟨strip k, ⟨k, v + f, ⟨q, v, f, h1, hf, rfl⟩, rfl, hw⟩, forall₂_strip h2⟩
  · rintro ⟨k, ⟨k', w', ⟨q, v, f, hp, hf, rfl⟩, rfl, hw⟩, h⟩
    obtain ⟨l', h1, h2⟩ := forall₂_unstrip h
    exact ⟨l', v + f, ⟨q, v, f, concretePath_iff.mpr ⟨k', hp, h1⟩, hf, rfl⟩, h2, hw⟩

theorem Means.mono {g : Graph} {l : List (Sym × Sym)} {w w' : Int} (h : Means g l w) (hw : w ≤ w') : Means g l w' := by
  obtain ⟨k, h1, h2⟩ := means_iff.mp h
  exact means_iff.mpr ⟨k, h1.mono hw, h2⟩

theorem Means.stripped {g : Graph} {l : List (Sym × Sym)} {w : Int} (h : Means g l w) : strip l = l := by
  obtain ⟨l', w', _, rfl, _⟩ := h
  exact strip_strip l'

theorem label_alpha {g : Graph} (hg : Good g) {p : Sym × Sym} (h : HasLabel g p) : p.1 ∈ g.alphabet ∧ p.2 ∈ g.alphabet := by
  obtain ⟨s, a, ha, rfl⟩ := h
  exact hg.alpha.arcs s a ha

theorem label_paired {g : Graph} (hg : IdentityPaired g) {p : Sym × Sym} (h : HasLabel g p) : p.1 = identity ↔ p.2 = identity := by
  obtain ⟨s, a, ha, rfl⟩ := h
  exact hg s a ha

theorem paired_of_labels {g : Graph} (h : ∀ p, HasLabel g p → (p.1 = identity ↔ p.2 = identity)) : IdentityPaired g :=
  fun s a ha => h a.label ⟨s, a, ha, rfl⟩

theorem forall₂_congr {al al' : List Sym} (h : ∀ x, x ∈ al ↔ x ∈ al') {k l : List (Sym × Sym)}
    (hf : List.Forall₂ (St al) k l) : List.Forall₂ (St al') k l := hf.imp fun _ _ => St.congr h

/-- In one alphabet a concrete sequence is described by one literal sequence only. -/
theorem forall₂_unique {al : List Sym} {k k' l : List (Sym × Sym)} (hk : ∀ p ∈ k, p.1 ∈ al ∧ p.2 ∈ al)
    (hk' : ∀ p ∈ k', p.1 ∈ al ∧ p.2 ∈ al) (h : List.Forall₂ (St al) k l) (h' : List.Forall₂ (St al) k' l) : k = k' := by
  induction h generalizing k' with
  | nil => cases h'; rfl
  | cons h1 _ ih =>
    cases h' with
    | cons h1' h2' =>
      rw [st_unique (hk _ (by simp)) (hk' _ (by simp)) h1 h1', ih (fun p hp => hk p (by simp [hp]))
        (fun p hp => hk' p (by simp [hp])) h2']

theorem forall₂_exists {al : List Sym} {k : List (Sym × Sym)} (h : ∀ p ∈ k, p.1 = identity ↔ p.2 = identity) :
    ∃ l, List.Forall₂ (St al) k l := by
  induction k with
  | nil => exact ⟨[], .nil⟩
  | cons p k ih =>
    obtain ⟨q, hq⟩ := st_exists al (h p (by simp))
    obtain ⟨l, hl⟩ := ih fun p hp => h p (by simp [hp])
    exact ⟨q :: l, .cons hq hl⟩

theorem Usual.hasSpecials {g : Graph} (h : Usual g) : HasSpecials g := ⟨h.good.alpha.eps, h.good.alpha.unk, h.good.alpha.idn⟩

theorem Usual.cost_alpha {g : Graph} (h : Usual g) {k : List (Sym × Sym)} {w : Int} (hk : Cost g k w) :
    ∀ p ∈ k, p.1 ∈ g.alphabet ∧ p.2 ∈ g.alphabet := fun p hp => label_alpha h.good (hk.labels p hp)

theorem Usual.cost_paired {g : Graph} (h : Usual g) {k : List (Sym × Sym)} {w : Int} (hk : Cost g k w) :
    ∀ p ∈ k, (p.1 = identity ↔ p.2 = identity) := fun p hp => label_paired h.paired (hk.labels p hp)

/-- Literal acceptance is determined by the meaning of one concrete instance. -/
theorem cost_of_means {g : Graph} (hg : Usual g) {al : List Sym} (hal : ∀ x, x ∈ g.alphabet ↔ x ∈ al)
    {k l : List (Sym × Sym)} {w : Int} (hk : ∀ p ∈ k, p.1 ∈ al ∧ p.2 ∈ al)
    (hf : List.Forall₂ (St al) k l) (h : Means g l w) : Cost g k w := by
  obtain ⟨k', h1, h2⟩ := means_iff.mp h
  have := forall₂_unique hk (fun p hp => by
    have := hg.cost_alpha h1 p hp
    exact ⟨(hal _).mp this.1, (hal _).mp this.2⟩) hf (forall₂_congr hal h2)
  rw [this]; exact h1

/-! ## Harmonization -/

theorem wf_mapStates {g : Graph} (hg : WF g) (f : List Arc → List Arc) (hf : f [] = [])
    (h : ∀ l, ∀ a ∈ f l, ∃ b ∈ l, a.target = b.target) (al : List Sym) :
    WF { g with states := g.states.map f, alphabet := al } := by
  refine ⟨by simpa using hg.nonempty, ?_, ?_⟩
  · intro s a ha
    rw [Graph.arcs_map g f hf] at ha
    obtain ⟨b, hb, e⟩ := h _ a ha
    rw [e]
    simpa using hg.targets s b hb
  · intro s w hs
    simpa using hg.finals s w hs

/-- The transitions after harmonization. -/
theorem harmonize_shape {g h : Graph} (hg : Usual g) (hh : Usual h) :
    ∃ g' h', harmonize g h = .ok (g', h') ∧ Usual g' ∧ Usual h' ∧
      (∀ x, x ∈ g'.alphabet ↔ x ∈ g.alphabet ∨ x ∈ h.alphabet) ∧ (∀ x, x ∈ h'.alphabet ↔ x ∈ g.alphabet ∨ x ∈ h.alphabet) ∧
      (∀ l w, Describes g' l w ↔ Describes g l w) ∧ ∀ l w, Describes h' l w ↔ Describes h l w := by
  obtain ⟨g', h', he, _, d1, d2⟩ := C30_partial g h hg.hasSpecials hh.hasSpecials hg.paired hh.paired
  refine ⟨g', h', he, ?_⟩
  unfold harmonize at he
  dsimp only at he
  generalize ho1 : setErase (setErase (setDiff (removeFlagsSet g.alphabet) (removeFlagsSet h.alphabet)) identity) unknown = m1
    at he
  generalize ho2 : setDiff (removeFlagsSet h.alphabet) (removeFlagsSet g.alphabet) = m2 at he
  have mem1 : ∀ x ∈ m1, x ∈ g.alphabet ∧ x ≠ identity := by
    intro x hx
    rw [← ho1, mem_setErase, mem_setErase, mem_setDiff, mem_removeFlagsSet] at hx
    exact ⟨hx.1.1.1.1, hx.1.2⟩
  have mem2 : ∀ x ∈ m2, x ∈ h.alphabet ∧ x ≠ identity := by
    intro x hx
    rw [← ho2, mem_setDiff, mem_removeFlagsSet, mem_removeFlagsSet] at hx
    exact ⟨hx.1.1, fun e => hx.2 ⟨e ▸ hg.good.alpha.idn, hx.1.2⟩⟩
  -- one transducer through both steps
  have steps : ∀ (g : Graph) (m al : List Sym), Usual g → (∀ x ∈ m, x ≠ identity) →
      (∀ x ∈ m, x ∈ al) → ∃ k1 k2, harmonizeIdentity g m = .ok k1 ∧ harmonizeUnknown k1 m = .ok k2 ∧
        k2.alphabet = g.alphabet ∧ ∀ ys, (∀ x, x ∈ al → x ∈ (k2.addSymbols ys).alphabet) → [] ∉ (k2.addSymbols ys).alphabet →
          Usual (k2.addSymbols ys) := by
    intro g m al hg hm hmal
    have e1 : harmonizeIdentity g m = .ok { g with states := g.states.map fun l => l ++ l.flatMap (identityAdds m) } := by
      unfold harmonizeIdentity
      by_cases h0 : m = []
      · subst h0
        have : (fun l : List Arc => l ++ l.flatMap (identityAdds [])) = id := by
          funext l; simp [show identityAdds [] = fun _ => [] by funext a; simp [identityAdds]]
        rw [this]; simp
      · rw [if_neg h0, if_neg]
        rw [any_arc]
        rintro ⟨s, a, ha, h⟩
        have h := of_decide_eq_true h
        exact h.2 ((hg.paired s a ha).mp h.1)
    let k1 : Graph := { g with states := g.states.map fun l => l ++ l.flatMap (identityAdds m) }
    have a1 : ∀ s, k1.arcs s = g.arcs s ++ (g.arcs s).flatMap (identityAdds m) :=
      fun s => Graph.arcs_map g (fun l => l ++ l.flatMap (identityAdds m)) (by simp) s g.alphabet
    have p1 : IdentityPaired k1 := paired_identity hg.paired a1
    have e2 : harmonizeUnknown k1 m = .ok { k1 with states := k1.states.map fun l => l ++ l.flatMap (unknownAdds m) } := by
      unfold harmonizeUnknown
      by_cases h0 : m = []
      · subst h0
        have : (fun l : List Arc => l ++ l.flatMap (unknownAdds [])) = id := by
          funext l; simp [show unknownAdds [] = fun _ => [] by funext a; simp [unknownAdds]]
        rw [this]; simp
      · rw [if_neg h0, if_neg]
        rw [any_arc]
        rintro ⟨s, a, ha, h⟩
        have h := of_decide_eq_true h
        rcases h with ⟨h1, h2⟩ | ⟨h1, h2⟩
        · exact unknown_ne_identity (h1.symm.trans ((p1 s a ha).mpr h2))
        · exact unknown_ne_identity (h1.symm.trans ((p1 s a ha).mp h2))
    let k2 : Graph := { k1 with states := k1.states.map fun l => l ++ l.flatMap (unknownAdds m) }
    have a2 : ∀ s, k2.arcs s = k1.arcs s ++ (k1.arcs s).flatMap (unknownAdds m) :=
      fun s => Graph.arcs_map k1 (fun l => l ++ l.flatMap (unknownAdds m)) (by simp) s k1.alphabet
    refine ⟨k1, k2, e1, e2, rfl, ?_⟩
    intro ys hys hne
    have hal : ∀ x, x ∈ g.alphabet → x ∈ (k2.addSymbols ys).alphabet := by
      intro x hx; rw [mem_alphabet_addSymbols]; exact .inl hx
    have w1 : WF k1 := wf_mapStates hg.good.wf _ (by simp) (by
      intro l a ha
      rcases List.mem_append.mp ha with ha | ha
      · exact ⟨a, ha, rfl⟩
      · obtain ⟨b, hb, ha⟩ := List.mem_flatMap.mp ha
        obtain ⟨_, k, _, rfl⟩ := mem_identityAdds.mp ha
        exact ⟨b, hb, rfl⟩) g.alphabet
    have w2 : WF k2 := wf_mapStates w1 _ (by simp) (by
      intro l a ha
      rcases List.mem_append.mp ha with ha | ha
      · exact ⟨a, ha, rfl⟩
      · obtain ⟨b, hb, ha⟩ := List.mem_flatMap.mp ha
        refine ⟨b, hb, ?_⟩
        rcases mem_unknownAdds.mp ha with ⟨_, k, _, rfl⟩ | ⟨_, k, _, rfl⟩ | ⟨_, _, k, _, l, _, _, rfl⟩ <;> rfl) k1.alphabet
    have hl1 : ∀ s, ∀ a ∈ k1.arcs s, (a.inp ∈ g.alphabet ∨ a.inp ∈ m) ∧ (a.out ∈ g.alphabet ∨ a.out ∈ m) := by
      intro s a ha
      rw [a1, List.mem_append, List.mem_flatMap] at ha
      rcases ha with ha | ⟨b, _, hb⟩
      · exact ⟨.inl (hg.good.alpha.arcs s a ha).1, .inl (hg.good.alpha.arcs s a ha).2⟩
      · obtain ⟨_, k, hk, rfl⟩ := mem_identityAdds.mp hb
        exact ⟨.inr hk, .inr hk⟩
    have hl2 : ∀ s, ∀ a ∈ k2.arcs s, (a.inp ∈ g.alphabet ∨ a.inp ∈ m) ∧ (a.out ∈ g.alphabet ∨ a.out ∈ m) := by
      intro s a ha
      rw [a2, List.mem_append, List.mem_flatMap] at ha
      rcases ha with ha | ⟨b, hb, ha⟩
      · exact hl1 s a ha
      · have hb' := hl1 s b hb
        rcases mem_unknownAdds.mp ha with ⟨_, k, hk, rfl⟩ | ⟨_, k, hk, rfl⟩ | ⟨_, _, k, hk, l, hl, _, rfl⟩
        · exact ⟨.inr hk, hb'.2⟩
        · exact ⟨hb'.1, .inr hk⟩
        · exact ⟨.inr hl, .inr hk⟩
    have p2 : IdentityPaired k2 := by
      intro s a ha
      rw [a2, List.mem_append, List.mem_flatMap] at ha
      rcases ha with ha | ⟨b, hb, ha⟩
      · exact p1 s a ha
      · have hb' := p1 s b hb
        rcases mem_unknownAdds.mp ha with ⟨hu, k, hk, rfl⟩ | ⟨hu, k, hk, rfl⟩ | ⟨_, _, k, hk, l, hl, _, rfl⟩
        · refine ⟨fun h => absurd h (hm k hk), fun h => ?_⟩
          exact absurd (hu.symm.trans (hb'.mpr h)) unknown_ne_identity
        · refine ⟨fun h => ?_, fun h => absurd h (hm k hk)⟩
          exact absurd (hu.symm.trans (hb'.mp h)) unknown_ne_identity
        · exact ⟨fun h => absurd h (hm l hl), fun h => absurd h (hm k hk)⟩
    refine ⟨⟨?_, ?_, hg.good.finals⟩, p2, hne⟩
    · exact ⟨w2.nonempty, w2.targets, w2.finals⟩
    · refine ⟨?_, hal _ hg.good.alpha.eps, hal _ hg.good.alpha.unk, hal _ hg.good.alpha.idn⟩
      intro s a ha
      have h2 := hl2 s a ha
      exact ⟨h2.1.elim (hal _) fun h => hys _ (hmal _ h), h2.2.elim (hal _) fun h => hys _ (hmal _ h)⟩
  obtain ⟨k1, k2, e1, e2, al1, u1⟩ := steps g m2 h.alphabet hg (fun x hx => (mem2 x hx).2) fun x hx => (mem2 x hx).1
  obtain ⟨j1, j2, e3, e4, al2, u2⟩ := steps h m1 g.alphabet hh (fun x hx => (mem1 x hx).2) fun x hx => (mem1 x hx).1
  rw [e1, e3] at he
  simp only [Outcome.bind] at he
  rw [e2, e4] at he
  simp only [Outcome.ok.injEq, Prod.mk.injEq] at he
  obtain ⟨rfl, rfl⟩ := he
  have m1' : ∀ x, x ∈ (k2.addSymbols j2.alphabet).alphabet ↔ x ∈ g.alphabet ∨ x ∈ h.alphabet := by
    intro x; rw [mem_alphabet_addSymbols, al1, al2]
  have m2' : ∀ x, x ∈ (j2.addSymbols (k2.addSymbols j2.alphabet).alphabet).alphabet ↔ x ∈ g.alphabet ∨ x ∈ h.alphabet := by
    intro x
    rw [mem_alphabet_addSymbols, m1', al2]
    exact ⟨fun h => h.elim .inr id, .inr⟩
  have hne : ¬ (([] : Sym) ∈ g.alphabet ∨ ([] : Sym) ∈ h.alphabet) := fun e => e.elim hg.nonempty hh.nonempty
  exact ⟨u1 _ (fun x hx => (m1' x).mpr (.inr hx)) (fun e => hne ((m1' _).mp e)),
    u2 _ (fun x hx => (m2' x).mpr (.inl hx)) (fun e => hne ((m2' _).mp e)), m1', m2', d1, d2⟩

theorem insertMissing_same {g h : Graph} (hs : ∀ x, isSpecial x = true → x ∈ h.alphabet → x ∈ g.alphabet) :
    insertMissing g h true = g := by
  unfold insertMissing
  have : (h.alphabet.filter fun x => decide (x ∉ g.alphabet) && (!true || isSpecial x)) = [] := by
    rw [List.filter_eq_nil_iff]
    intro x hx h'
    simp only [Bool.not_true, Bool.false_or, Bool.and_eq_true, decide_eq_true_eq] at h'
    exact h'.1 (hs x h'.2 hx)
  rw [this]
  rfl

theorem prepare_same {g h : Graph} (hs : SameSpecials g h) : prepare g h true = (g, h) := by
  unfold prepare
  simp only [if_true]
  rw [insertMissing_same fun x hx => (hs x hx).mpr, insertMissing_same fun x hx => (hs x hx).mp]

/-- What two transducers become before an operation. -/
theorem prepared {g h : Graph} (hg : Usual g) (hh : Usual h) (hs : SameSpecials g h) :
    ∃ g' h', harmonize (prepare g h true).1 (prepare g h true).2 = .ok (g', h') ∧ Usual g' ∧ Usual h' ∧ Same g' h' ∧
      (∀ x, x ∈ g'.alphabet ↔ x ∈ g.alphabet ∨ x ∈ h.alphabet) ∧
      (∀ l w, Means g' l w ↔ Means g l w) ∧ ∀ l w, Means h' l w ↔ Means h l w := by
  rw [prepare_same hs]
  obtain ⟨g', h', he, u1, u2, a1, a2, d1, d2⟩ := harmonize_shape hg hh
  refine ⟨g', h', he, u1, u2, fun x => by rw [a1, a2], a1, ?_, ?_⟩
  · intro l w; simp only [Means, d1]
  · intro l w; simp only [Means, d2]

end Hfst.Trans
