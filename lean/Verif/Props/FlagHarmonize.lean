import Verif.Lemmas.FlagHarmonize
import Verif.Props.FlagElim

/-!
# C92: Harmonizing the flags of two transducers
-/
namespace Hfst.FlagHarm
open Hfst.Basic Hfst.Trans Hfst.Basic.Graph

/-! ## Renaming -/

theorem mem_means {g : Graph} {l : List (Sym × Sym)} {w : Int} (h : Means g l w) :
    ∀ p ∈ l, ∃ s, ∃ a ∈ g.arcs s, Stands g.alphabet a.inp a.out p := by
  obtain ⟨k, v, ⟨q, u, f, hp, hf, hv⟩, rfl, hw⟩ := h
  clear hf hw hv
  generalize 0 = s0 at hp
  intro p hps
  have hpk : p ∈ k := (List.mem_filter.1 hps).1
  clear hps
  induction hp with
  | nil s => cases hpk
  | @cons s q a p' l w ha hst _ ih =>
    rcases List.mem_cons.1 hpk with rfl | hpk
    · exact ⟨s, a, ha, hst⟩
    · exact ih hpk

/-- A flag on a side of a pair is on the same side of its transition. -/
theorem stands_flag {al : List Sym} {i o : Sym} {p : Sym × Sym} (h : Stands al i o p) :
    (Flags.isDiacritic p.1 = true → p.1 = i) ∧ (Flags.isDiacritic p.2 = true → p.2 = o) := by
  have no : ∀ {x y : Sym}, Outside al x → Flags.isDiacritic x = true → x = y := by
    intro x y ho hd
    rw [ho.1.2.2.2.1] at hd; cases hd
  cases h with
  | itself => exact ⟨fun _ => rfl, fun _ => rfl⟩
  | identity _ _ ho => exact ⟨no ho, no ho⟩
  | input _ _ _ ho => exact ⟨no ho, fun _ => rfl⟩
  | output _ _ _ ho => exact ⟨fun _ => rfl, no ho⟩
  | both _ _ h1 h2 => exact ⟨no h1, no h2⟩

/-- A flag on one side of a transition stands for itself on both. -/
theorem twoSided_pair {g : Graph} (hg : TwoSided g) {s : Nat} {a : Arc} (ha : a ∈ g.arcs s) {p : Sym × Sym}
    (hst : Stands g.alphabet a.inp a.out p) (hd : Flags.isDiacritic p.1 = true ∨ Flags.isDiacritic p.2 = true) :
    p = (a.inp, a.inp) ∧ Flags.isDiacritic a.inp = true := by
  have hf := stands_flag hst
  have hd' : Flags.isDiacritic a.inp = true ∨ Flags.isDiacritic a.out = true := by
    rcases hd with h | h
    · left; rw [← hf.1 h]; exact h
    · right; rw [← hf.2 h]; exact h
  have he := hg s a ha hd'
  rw [← he, or_self] at hd'
  have h1 : a.inp ≠ unknown := by rintro h; rw [h, unknown_plain] at hd'; cases hd'
  have h2 : a.inp ≠ identity := by rintro h; rw [h, identity_plain] at hd'; cases hd'
  rw [← he] at hst
  cases hst with
  | itself => exact ⟨rfl, hd'⟩
  | identity h => exact absurd h h2
  | input h => exact absurd h h1
  | output h => exact absurd h h1
  | both h => exact absurd h h1

/-- Flags are on both sides of a pair or on none. -/
def Neat (l : List (Sym × Sym)) : Prop :=
  ∀ p ∈ l, (Flags.isDiacritic p.1 = true ∨ Flags.isDiacritic p.2 = true) → p.1 = p.2

theorem neat_of_means {g : Graph} (hg : TwoSided g) {l : List (Sym × Sym)} {w : Int} (h : Means g l w) : Neat l := by
  intro p hp hd
  obtain ⟨s, a, ha, hst⟩ := mem_means h p hp
  rw [(twoSided_pair hg ha hst hd).1]

/-- The flags on the sequences of a transducer are on its transitions. -/
theorem flag_of_means {g : Graph} {l : List (Sym × Sym)} {w : Int} (h : Means g l w) {p : Sym × Sym}
    (hp : p ∈ l) (hd : Flags.isDiacritic p.1 = true) : ∃ s, ∃ a ∈ g.arcs s, a.inp = p.1 := by
  obtain ⟨s, a, ha, hst⟩ := mem_means h p hp
  exact ⟨s, a, ha, ((stands_flag hst).1 hd).symm⟩

theorem neat_snd {l : List (Sym × Sym)} (h : Neat l) {p : Sym × Sym} (hp : p ∈ l) (hd : Flags.isDiacritic p.1 = false) :
    Flags.isDiacritic p.2 = false := by
  cases h2 : Flags.isDiacritic p.2 with
  | false => rfl
  | true =>
    have := h p hp (Or.inr h2)
    rw [this, h2] at hd; cases hd

theorem withoutFlags_rename {suf : Sym} (hs : '.' ∉ suf) : ∀ {l : List (Sym × Sym)}, Neat l →
    withoutFlags (l.map (renamePair suf)) = withoutFlags l
  | [], _ => rfl
  | p :: l, h => by
    have ih := withoutFlags_rename hs (l := l) (fun q hq => h q (List.mem_cons_of_mem _ hq))
    unfold withoutFlags at ih ⊢
    simp only [List.map_cons, List.filter_cons, renamePair, isDiacritic_renameSym hs]
    rw [show List.filter (fun p => !Flags.isDiacritic p.1) (List.map (renamePair suf) l) = _ from ih]
    cases hd : Flags.isDiacritic p.1 with
    | true => rfl
    | false =>
      simp only [Bool.not_false, if_true, renameSym_other hd,
        renameSym_other (neat_snd h (List.mem_cons_self ..) hd)]

theorem obeys_rename {suf : Sym} (hs : '.' ∉ suf) (l : List (Sym × Sym)) :
    Obeys ((l.map (renamePair suf)).map Prod.fst) ↔ Obeys (l.map Prod.fst) := by
  unfold Obeys
  rw [← obeysFrom_rename hs (l.map Prod.fst) (fun _ => .nothing) (fun _ => .nothing) (fun _ => rfl)]
  simp only [List.map_map]
  exact Iff.rfl

/-- **C92.**  Renaming gives the same transducer with the suffix after the features: a sequence is accepted by the new transducer
exactly if it is a sequence of the old one with the suffix put after the feature of every flag; the operators and values stay. -/
theorem C92_rename (suf : Sym) (hs : '.' ∉ suf) (g : Graph) (hg : Proper g) :
    (∀ l' w, Means (rename suf g) l' w ↔
      ∃ l, Means g l w ∧ l' = l.map fun p => (renameSym suf p.1, renameSym suf p.2)) ∧
    (∀ x, readFlag (renameSym suf x) = (readFlag x).map fun t => (t.1, t.2.1 ++ suf, t.2.2)) ∧
    ∀ x, Flags.isDiacritic x = false → renameSym suf x = x :=
  ⟨fun _ _ => means_rename hs hg.usual.good.wf hg.usual.good.alpha hg.used, readFlag_renameSym hs,
    fun _ h => renameSym_other h suf⟩

/-- **C92.**  Renaming changes nothing of what the transducer accepts on paths whose flags let through. -/
theorem C92_rename_meaning (suf : Sym) (hs : '.' ∉ suf) (g : Graph) (hg : Proper g)
    (p : List (Sym × Sym)) (w : Int) : MeansObeying (rename suf g) p w ↔ MeansObeying g p w := by
  have hr := @means_rename suf hs g hg.usual.good.wf hg.usual.good.alpha hg.used
  unfold MeansObeying
  constructor
  · rintro ⟨l', ha, ho, hp⟩
    obtain ⟨l, hl, rfl⟩ := hr.1 ha
    exact ⟨l, hl, (obeys_rename hs l).1 ho, by rwa [withoutFlags_rename hs (neat_of_means hg.twoSided hl)] at hp⟩
  · rintro ⟨l, hl, ho, hp⟩
    exact ⟨_, hr.2 ⟨l, hl, rfl⟩, (obeys_rename hs l).2 ho,
      by rwa [withoutFlags_rename hs (neat_of_means hg.twoSided hl)]⟩

/-! ## Two transducers -/

theorem no_dot_1 : '.' ∉ "_1".toList := by decide
theorem no_dot_2 : '.' ∉ "_2".toList := by decide

theorem flagOf_apart {x : Sym} (h1 : FlagOf "_1".toList x) (h2 : FlagOf "_2".toList x) : False := by
  obtain ⟨o, f, v, h1⟩ := h1
  obtain ⟨o', f', v', h2⟩ := h2
  rw [h1] at h2
  injection h2 with h2
  have h3 : f ++ "_1".toList = f' ++ "_2".toList := congrArg (fun t => t.2.1) h2
  have h4 := congrArg List.getLast? h3
  rw [show "_1".toList = ['_', '1'] from by decide, show "_2".toList = ['_', '2'] from by decide] at h4
  simp at h4

theorem flagOf_rename {suf : Sym} (hs : '.' ∉ suf) {x : Sym} (h : Flags.isDiacritic x = true) :
    FlagOf suf (renameSym suf x) := by
  have h1 := readFlag_renameSym hs x
  have h2 := readFlag_isSome (x := x)
  rw [h] at h2
  obtain ⟨t, ht⟩ := Option.isSome_iff_exists.1 h2
  rw [ht] at h1
  exact ⟨t.1, t.2.1, t.2.2, h1⟩

theorem FlagOf.isDiacritic {suf x : Sym} (h : FlagOf suf x) : Flags.isDiacritic x = true := by
  obtain ⟨o, f, v, h⟩ := h
  rw [← readFlag_isSome, h]; rfl

theorem hasValue_rename {suf : Sym} (hs : '.' ∉ suf) {x : Sym} (h : Flags.isDiacritic x = true) :
    Flags.hasValue (renameSym suf x) = Flags.hasValue x := by
  obtain ⟨o, f, v, hw, rfl⟩ := (Flags.C01_isDiacritic_iff x).1 h
  rw [renameSym_spell hw, (Flags.C01_parts o f v hw).2.2.2, (Flags.C01_parts _ _ _ (wellFormed_suffix hw hs)).2.2.2]

theorem init_no_flags {x : Sym} (h : x ∈ Graph.init.alphabet) : Flags.isDiacritic x = false := by
  have : ∀ y ∈ Graph.init.alphabet, Flags.isDiacritic y = false := by decide +kernel
  exact this x h

theorem flag_in_rename {suf : Sym} (hs : '.' ∉ suf) {g : Graph} {x : Sym} (h : x ∈ (rename suf g).alphabet)
    (hd : Flags.isDiacritic x = true) : FlagOf suf x := by
  rcases (alphabet_rename suf g x).1 h with h | ⟨s, a, ha, h⟩
  · rw [init_no_flags h] at hd; cases hd
  · rcases h with rfl | rfl <;> exact flagOf_rename hs (by rwa [isDiacritic_renameSym hs] at hd)

theorem mem_missingFlags {g h : Graph} {x : Sym} :
    x ∈ missingFlags g h ↔ x ∈ h.alphabet ∧ Flags.isDiacritic x = true ∧ x ∉ g.alphabet := by
  simp [missingFlags]

/-- Features that end in `_1`. -/
noncomputable def isFirst (f : Sym) : Bool := by
  classical exact decide (∃ f', f = f' ++ "_1".toList)

section Apart
variable {A B : Sym × Sym → Bool} {l : List (Sym × Sym)}
  (hA : ∀ p, A p = true → FlagOf "_1".toList p.1) (hB : ∀ p, B p = true → FlagOf "_2".toList p.1)
  (hl : ∀ p ∈ l, A p = true ∨ B p = true ∨ Flags.isDiacritic p.1 = false)
include hA hB hl

theorem obeys_apart : Obeys (l.map Prod.fst) ↔
    Obeys ((l.filter fun p => !B p).map Prod.fst) ∧ Obeys ((l.filter fun p => !A p).map Prod.fst) := by
  unfold Obeys
  rw [obeysFrom_apart isFirst (l.map Prod.fst) (fun _ => .nothing) (fun _ => .nothing) (fun _ => .nothing)
    (fun _ _ => rfl) (fun _ _ => rfl), List.filter_map, List.filter_map]
  have h1 : ∀ p ∈ l, (keeps isFirst ∘ Prod.fst) p = !B p := by
    intro p hp
    simp only [Function.comp, keeps]
    rcases hl p hp with h | h | h
    · have hb : B p = false := by
        cases hb : B p with
        | false => rfl
        | true => exact absurd (hB p hb) (fun h2 => flagOf_apart (hA p h) h2)
      obtain ⟨o, f, v, hr⟩ := hA p h
      rw [hr, hb]
      simp [isFirst]
    · obtain ⟨o, f, v, hr⟩ := hB p h
      rw [hr, h]
      simp only [isFirst, Bool.not_true, decide_eq_false_iff_not]
      rintro ⟨f', hf'⟩
      exact flagOf_apart (x := p.1) ⟨o, f', v, by rw [hr, hf']⟩ (hB p h)
    · rw [readFlag_none h]
      cases hb : B p with
      | false => rfl
      | true => rw [(hB p hb).isDiacritic] at h; cases h
  have h2 : ∀ p ∈ l, ((keeps fun f => !isFirst f) ∘ Prod.fst) p = !A p := by
    intro p hp
    simp only [Function.comp, keeps]
    rcases hl p hp with h | h | h
    · obtain ⟨o, f, v, hr⟩ := hA p h
      rw [hr, h]
      simp [isFirst]
    · have ha : A p = false := by
        cases ha : A p with
        | false => rfl
        | true => exact absurd (hB p h) (fun h2 => flagOf_apart (hA p ha) h2)
      obtain ⟨o, f, v, hr⟩ := hB p h
      rw [hr, ha]
      simp only [isFirst, Bool.not_false, Bool.not_eq_true', decide_eq_false_iff_not]
      rintro ⟨f', hf'⟩
      exact flagOf_apart (x := p.1) ⟨o, f', v, by rw [hr, hf']⟩ (hB p h)
    · rw [readFlag_none h]
      cases ha : A p with
      | false => rfl
      | true => rw [(hA p ha).isDiacritic] at h; cases h
  rw [List.filter_congr h1, List.filter_congr h2]

end Apart

theorem withoutFlags_filter {B : Sym × Sym → Bool} (hB : ∀ p, B p = true → Flags.isDiacritic p.1 = true)
    (l : List (Sym × Sym)) : withoutFlags (l.filter fun p => !B p) = withoutFlags l := by
  unfold withoutFlags
  rw [List.filter_filter]
  apply List.filter_congr
  intro p _
  cases hb : B p with
  | false => simp
  | true => simp [hB p hb]

theorem obeys_pass : ∀ (s t : List Sym) (F : Sym → Held), (∀ x ∈ s, Flags.isDiacritic x = false) →
    (ObeysFrom F (s ++ t) ↔ ObeysFrom F t)
  | [], _, _, _ => Iff.rfl
  | x :: s, t, F, hs => by
    simp only [List.cons_append, ObeysFrom, readFlag_none (hs x (List.mem_cons_self ..))]
    exact obeys_pass s t F (fun y hy => hs y (List.mem_cons_of_mem _ hy))

theorem obeys_pass_end : ∀ (t s : List Sym) (F : Sym → Held), (∀ x ∈ s, Flags.isDiacritic x = false) →
    (ObeysFrom F (t ++ s) ↔ ObeysFrom F t)
  | [], s, F, hs => by
    have := obeys_pass s [] F hs
    simpa using this
  | x :: t, s, F, hs => by
    simp only [List.cons_append, ObeysFrom]
    split
    · exact obeys_pass_end t s F hs
    · rw [obeys_pass_end t s _ hs]

theorem no_flags_on {k : Graph} (ak : AlphaOK k) (hk : hasFlags k = false) {l : List (Sym × Sym)} {w : Int}
    (ha : Means k l w) : ∀ p ∈ l, Flags.isDiacritic p.1 = false := by
  intro p hp
  cases hd : Flags.isDiacritic p.1 with
  | false => rfl
  | true =>
    obtain ⟨s, a, haa, he⟩ := flag_of_means ha hp hd
    have : hasFlags k = true := List.any_eq_true.2 ⟨a.inp, (ak.arcs s a haa).1, by rw [he]; exact hd⟩
    rw [hk] at this; cases this

theorem no_flags_map {l : List (Sym × Sym)} (h : ∀ p ∈ l, Flags.isDiacritic p.1 = false) :
    ∀ x ∈ l.map Prod.fst, Flags.isDiacritic x = false := by
  intro x hx
  obtain ⟨p, hp, rfl⟩ := List.mem_map.1 hx
  exact h p hp

theorem obeys_plain {l : List (Sym × Sym)} (h : ∀ p ∈ l, Flags.isDiacritic p.1 = false) : Obeys (l.map Prod.fst) := by
  have := obeys_pass_end [] _ (fun _ => Held.nothing) (no_flags_map h)
  rw [List.nil_append] at this
  exact this.2 trivial

/-- Sequences with flags of the two transducers one after the other. -/
theorem obeys_append {l1 l2 : List (Sym × Sym)}
    (d1 : ∀ p ∈ l1, Flags.isDiacritic p.1 = true → FlagOf "_1".toList p.1)
    (d2 : ∀ p ∈ l2, Flags.isDiacritic p.1 = true → FlagOf "_2".toList p.1) :
    Obeys ((l1 ++ l2).map Prod.fst) ↔ Obeys (l1.map Prod.fst) ∧ Obeys (l2.map Prod.fst) := by
  classical
  have := obeys_apart (A := fun p => decide (FlagOf "_1".toList p.1)) (B := fun p => decide (FlagOf "_2".toList p.1))
    (l := l1 ++ l2) (fun p hp => of_decide_eq_true hp) (fun p hp => of_decide_eq_true hp) ?_
  · rw [this]
    have hf1 : l1.filter (fun p => !decide (FlagOf "_2".toList p.1)) = l1 := by
      apply List.filter_eq_self.2
      intro p hp
      simp only [Bool.not_eq_true', decide_eq_false_iff_not]
      exact fun h2 => flagOf_apart (d1 p hp h2.isDiacritic) h2
    have hf2 : l2.filter (fun p => !decide (FlagOf "_1".toList p.1)) = l2 := by
      apply List.filter_eq_self.2
      intro p hp
      simp only [Bool.not_eq_true', decide_eq_false_iff_not]
      exact fun h1 => flagOf_apart h1 (d2 p hp h1.isDiacritic)
    have hg1 : ∀ p ∈ l2.filter (fun p => !decide (FlagOf "_2".toList p.1)), Flags.isDiacritic p.1 = false := by
      intro p hp
      obtain ⟨hp, hn⟩ := List.mem_filter.1 hp
      cases hd : Flags.isDiacritic p.1 with
      | false => rfl
      | true => rw [decide_eq_true (d2 p hp hd)] at hn; cases hn
    have hg2 : ∀ p ∈ l1.filter (fun p => !decide (FlagOf "_1".toList p.1)), Flags.isDiacritic p.1 = false := by
      intro p hp
      obtain ⟨hp, hn⟩ := List.mem_filter.1 hp
      cases hd : Flags.isDiacritic p.1 with
      | false => rfl
      | true => rw [decide_eq_true (d1 p hp hd)] at hn; cases hn
    rw [List.filter_append, List.filter_append, List.map_append, List.map_append, hf1, hf2]
    unfold Obeys
    rw [obeys_pass_end _ _ _ (no_flags_map hg1), obeys_pass _ _ _ (no_flags_map hg2)]
  · intro p hp
    cases hd : Flags.isDiacritic p.1 with
    | false => exact Or.inr (Or.inr rfl)
    | true =>
      rcases List.mem_append.1 hp with hp | hp
      · exact Or.inl (decide_eq_true (d1 p hp hd))
      · exact Or.inr (Or.inl (decide_eq_true (d2 p hp hd)))

theorem withoutFlags_append (l1 l2 : List (Sym × Sym)) : withoutFlags (l1 ++ l2) = withoutFlags l1 ++ withoutFlags l2 := by
  unfold withoutFlags; rw [List.filter_append]

theorem concat_core {B : Backend} (hB : B.Ok) {a b : Graph} (ua : Usual a) (ub : Usual b) (pa : Plain a) (pb : Plain b)
    (hab : ∀ l1 w1 l2 w2, Means a l1 w1 → Means b l2 w2 →
      (Obeys ((l1 ++ l2).map Prod.fst) ↔ Obeys (l1.map Prod.fst) ∧ Obeys (l2.map Prod.fst))) :
    ∃ r, concatenate B a b = .ok r ∧ ∀ p w, MeansObeying r p w ↔
      ∃ p1 w1 p2 w2, MeansObeying a p1 w1 ∧ MeansObeying b p2 w2 ∧ p = p1 ++ p2 ∧ w1 + w2 ≤ w := by
  obtain ⟨r, he, _, _, hm⟩ := C73_concatenate hB a b ua ub (pa.same pb ua.good ub.good)
  refine ⟨r, he, fun p w => ?_⟩
  constructor
  · rintro ⟨l, hl, ho, rfl⟩
    obtain ⟨l1, l2, w1, w2, h1, h2, rfl, hw⟩ := (hm l w).1 hl
    have := (hab l1 w1 l2 w2 h1 h2).1 ho
    exact ⟨_, w1, _, w2, ⟨l1, h1, this.1, rfl⟩, ⟨l2, h2, this.2, rfl⟩, withoutFlags_append l1 l2, hw⟩
  · rintro ⟨p1, w1, p2, w2, ⟨l1, h1, o1, rfl⟩, ⟨l2, h2, o2, rfl⟩, rfl, hw⟩
    exact ⟨l1 ++ l2, (hm _ _).2 ⟨l1, l2, w1, w2, h1, h2, rfl, hw⟩, (hab l1 w1 l2 w2 h1 h2).2 ⟨o1, o2⟩,
      withoutFlags_append l1 l2⟩

/-- **C92.**  hfst-concatenate -F gives the concatenation of what the two transducers accept on paths whose flags let through: the
flags of the one have no effect on those of the other.  The second transducer, which is used again if it is alone in its archive,
accepts what it accepted before. -/
theorem C92_concatenation (B : Backend) (hB : B.Ok) (g h : Graph) (hg : Proper g) (hh : Proper h) :
    ∃ r second, concatenateStep (fun a b => concatenate B a b) g h = some (.ok r, second) ∧
      (∀ p w, MeansObeying second p w ↔ MeansObeying h p w) ∧
      ∀ p w, MeansObeying r p w ↔
        ∃ p1 w1 p2 w2, MeansObeying g p1 w1 ∧ MeansObeying h p2 w2 ∧ p = p1 ++ p2 ∧ w1 + w2 ≤ w := by
  unfold concatenateStep
  cases fg : hasFlags g with
  | false =>
    obtain ⟨r, he, hr⟩ := concat_core hB hg.usual hh.usual hg.plain hh.plain (fun l1 w1 l2 w2 h1 h2 => by
      have hn := no_flags_on hg.usual.good.alpha fg h1
      rw [and_iff_right (obeys_plain hn), List.map_append]
      exact obeys_pass _ _ _ (no_flags_map hn))
    exact ⟨r, h, by simp only [Bool.false_and, Bool.false_eq_true, if_false, he], fun _ _ => Iff.rfl, hr⟩
  | true =>
    cases fh : hasFlags h with
    | false =>
      obtain ⟨r, he, hr⟩ := concat_core hB hg.usual hh.usual hg.plain hh.plain (fun l1 w1 l2 w2 h1 h2 => by
        have hn := no_flags_on hh.usual.good.alpha fh h2
        rw [and_iff_left (obeys_plain hn), List.map_append]
        exact obeys_pass_end _ _ _ (no_flags_map hn))
      exact ⟨r, h, by simp only [Bool.and_false, Bool.false_eq_true, if_false, he], fun _ _ => Iff.rfl, hr⟩
    | true =>
      obtain ⟨r, he, hr⟩ := concat_core hB (usual_rename no_dot_1 hg.usual) (usual_rename no_dot_2 hh.usual)
        (plain_rename no_dot_1 hg.usual.good.alpha hg.plain) (plain_rename no_dot_2 hh.usual.good.alpha hh.plain)
        (fun l1 w1 l2 w2 h1 h2 => obeys_append
          (fun p hp hd => by
            obtain ⟨s, a, haa, e⟩ := flag_of_means h1 hp hd
            exact flag_in_rename no_dot_1 (e ▸ ((alphaOK_rename _ g).arcs s a haa).1) hd)
          (fun p hp hd => by
            obtain ⟨s, a, haa, e⟩ := flag_of_means h2 hp hd
            exact flag_in_rename no_dot_2 (e ▸ ((alphaOK_rename _ h).arcs s a haa).1) hd))
      refine ⟨r, rename "_2".toList h, ?_, fun p w => C92_rename_meaning _ no_dot_2 h hh p w, fun p w => ?_⟩
      · simp only [harmonizeFlags, fg, fh, Bool.and_self, if_true, Bool.false_eq_true, if_false, he]
      · rw [hr]
        simp only [C92_rename_meaning _ no_dot_1 g hg, C92_rename_meaning _ no_dot_2 h hh]

end Hfst.FlagHarm
